import Verif.Model.RegexText
import Verif.Spec.RegexText
import Verif.Proofs.Pattern
import Verif.Proofs.Tags
import Mathlib.Data.List.Basic
/-
Unique readability of the texts of regex ASTs.
-/
namespace LogSurgeon

/-- A pattern as a sequence of items. -/
inductive Seq where
  | nil
  | lit (c : Nat) (k : Seq)
  | wild (negate : Bool) (k : Seq)
  | cls (negate : Bool) (ranges : List Range) (k : Seq)
  | or (l r k : Seq)
  | mult (x : Seq) (min max : Nat) (k : Seq)
  | cap (x : Seq) (name : String) (k : Seq)
  | neg (name : String) (k : Seq)

namespace Seq

def text : Seq → List Nat
  | nil => []
  | lit c k => c :: k.text
  | wild g k => 91 :: ((if g then [94] else []) ++ (42 :: 93 :: k.text))
  | cls g rs k => 91 :: ((if g then [94] else []) ++ (rangesText rs ++ (93 :: k.text)))
  | or l r k => 40 :: (l.text ++ (41 :: 124 :: 40 :: (r.text ++ (41 :: k.text))))
  | mult x a b k => 40 :: (x.text ++ (41 :: 123 :: (decimalText a ++ (44 :: ((if b = 0 then [105, 110, 102] else decimalText b) ++ (125 :: k.text))))))
  | cap x n k => 40 :: (x.text ++ (41 :: 60 :: (ascii n ++ (62 :: k.text))))
  | neg n k => 60 :: 126 :: (ascii n ++ (62 :: k.text))

def Plain : Seq → Prop
  | nil => True
  | lit c k => (c ≠ 40 ∧ c ≠ 41 ∧ c ≠ 91 ∧ c ≠ 60) ∧ k.Plain
  | wild _ k => k.Plain
  | cls _ rs k => (∀ r ∈ rs, r.1 ≠ 93 ∧ r.2 ≠ 93) ∧ k.Plain
  | or l r k => l.Plain ∧ r.Plain ∧ k.Plain
  | mult x _ _ k => x.Plain ∧ k.Plain
  | cap x n k => '>' ∉ n.toList ∧ x.Plain ∧ k.Plain
  | neg n k => '>' ∉ n.toList ∧ k.Plain

end Seq

theorem cut_at {c : Nat} : ∀ {a a' r r' : List Nat}, c ∉ a → c ∉ a' → a ++ c :: r = a' ++ c :: r' → a = a' ∧ r = r' := by
  intro a
  induction a with
  | nil =>
    intro a' r r' _ h' h
    cases a' with
    | nil => simpa using h
    | cons x a' => simp at h h'; exact absurd h.1 h'.1
  | cons x a ih =>
    intro a' r r' h0 h' h
    cases a' with
    | nil => simp at h h0; exact absurd h.1.symm h0.1
    | cons y a' =>
      simp only [List.cons_append, List.cons.injEq, List.mem_cons, not_or] at h h' h0
      obtain ⟨h1, h2⟩ := ih h0.2 h'.2 h.2
      exact ⟨by rw [h.1, h1], h2⟩

theorem ascii_inj {a b : String} (h : ascii a = ascii b) : a = b := by
  have h1 : a.toList = b.toList := by
    refine List.map_injective_iff.mpr ?_ h
    intro x y hxy
    exact Char.toNat_inj.mp hxy
  exact String.toList_inj.mp h1

theorem ascii_gt {n : String} (h : '>' ∉ n.toList) : 62 ∉ ascii n := by
  intro hm
  obtain ⟨c, hc, he⟩ := List.mem_map.mp hm
  have : c = '>' := Char.toNat_inj.mp he
  exact h (this ▸ hc)

theorem decimalText_digit {k c : Nat} (h : c ∈ decimalText k) : 48 ≤ c ∧ c ≤ 57 := by
  obtain ⟨d, hd, rfl⟩ := List.mem_map.mp h
  have := Nat.isDigit_of_mem_toDigits (by decide) (by decide) hd
  simp only [Char.isDigit, Bool.and_eq_true, decide_eq_true_eq, ge_iff_le] at this
  exact ⟨UInt32.le_iff_toNat_le.mp this.1, UInt32.le_iff_toNat_le.mp this.2⟩

theorem decimalText_inj {a b : Nat} (h : decimalText a = decimalText b) : a = b := by
  have h1 : Nat.toDigits 10 a = Nat.toDigits 10 b := by
    refine List.map_injective_iff.mpr ?_ h
    intro x y hxy
    exact Char.toNat_inj.mp hxy
  have h2 := Nat.ofDigitChars_toDigits (b := 10) (n := a) (by decide) (by decide)
  rw [h1, Nat.ofDigitChars_toDigits (by decide) (by decide)] at h2
  exact h2.symm

theorem rangesText_cons (r : Range) (rs : List Range) :
    rangesText (r :: rs) = r.1 :: 45 :: r.2 :: (if rs = [] then [] else 44 :: 32 :: rangesText rs) := by
  cases rs with
  | nil => rfl
  | cons r' rs => rfl

theorem rangesText_no {rs : List Range} (h : ∀ r ∈ rs, r.1 ≠ 93 ∧ r.2 ≠ 93) : 93 ∉ rangesText rs := by
  induction rs with
  | nil => simp [rangesText, joinWith]
  | cons r rs ih =>
    have := ih fun x hx => h x (.tail _ hx)
    have h0 := h r (.head _)
    rw [rangesText_cons]
    split
    · simp only [List.mem_cons, List.not_mem_nil, or_false, not_or]; omega
    · simp only [List.mem_cons, not_or]
      exact ⟨Ne.symm h0.1, by decide, Ne.symm h0.2, by decide, by decide, this⟩

/-- The lengths: 0, or `5 * k - 2`. -/
theorem rangesText_length (rs : List Range) : rs = [] ∧ rangesText rs = [] ∨ rs ≠ [] ∧ (rangesText rs).length % 5 = 3 := by
  induction rs with
  | nil => exact .inl ⟨rfl, rfl⟩
  | cons r rs ih =>
    refine .inr ⟨by simp, ?_⟩
    rw [rangesText_cons]
    rcases ih with ⟨h1, _⟩ | ⟨h1, h2⟩
    · simp [h1]
    · simp only [h1, if_false, List.length_cons]; omega

theorem rangesText_inj : ∀ {rs rs' : List Range}, rangesText rs = rangesText rs' → rs = rs' := by
  intro rs
  induction rs with
  | nil =>
    intro rs' h
    cases rs' with
    | nil => rfl
    | cons r rs' => rw [rangesText_cons] at h; cases h
  | cons r rs ih =>
    intro rs' h
    cases rs' with
    | nil => rw [rangesText_cons] at h; cases h
    | cons r' rs' =>
      rw [rangesText_cons, rangesText_cons] at h
      simp only [List.cons.injEq, true_and] at h
      obtain ⟨h1, h2, h3⟩ := h
      have : r = r' := Prod.ext h1 h2
      subst this
      by_cases e1 : rs = [] <;> by_cases e2 : rs' = []
      · rw [e1, e2]
      · simp [e1, e2] at h3
      · simp [e1, e2] at h3
      · simp only [e1, e2, if_false, List.cons.injEq, true_and] at h3
        rw [ih h3]

/-- The content of brackets determines what it is. -/
theorem bracket_cls {g g' : Bool} {rs rs' : List Range}
    (h : (if g then [94] else []) ++ rangesText rs = (if g' then [94] else []) ++ rangesText rs') : g = g' ∧ rs = rs' := by
  have hl := congrArg List.length h
  have h1 := rangesText_length rs
  have h2 := rangesText_length rs'
  have hg : g = g' := by
    cases g <;> cases g' <;> simp only [if_true, if_false, List.nil_append, List.length_append, List.length_singleton, Bool.false_eq_true] at hl ⊢
    · rcases h1 with ⟨_, e1⟩ | ⟨_, e1⟩ <;> rcases h2 with ⟨_, e2⟩ | ⟨_, e2⟩ <;> (try rw [e1] at hl) <;> (try rw [e2] at hl) <;>
        (try simp only [List.length_nil] at hl) <;> omega
    · rcases h1 with ⟨_, e1⟩ | ⟨_, e1⟩ <;> rcases h2 with ⟨_, e2⟩ | ⟨_, e2⟩ <;> (try rw [e1] at hl) <;> (try rw [e2] at hl) <;>
        (try simp only [List.length_nil] at hl) <;> omega
  subst hg
  exact ⟨rfl, rangesText_inj (List.append_cancel_left h)⟩

theorem bracket_wild {g g' : Bool} {rs' : List Range}
    (h : (if g then [94] else []) ++ [42] = (if g' then [94] else []) ++ rangesText rs') : False := by
  have hl := congrArg List.length h
  cases g <;> cases g' <;> simp only [if_true, if_false, List.nil_append, List.length_append, List.length_singleton, Bool.false_eq_true] at hl h
  all_goals
    rcases rangesText_length rs' with ⟨_, e2⟩ | ⟨_, e2⟩
    · rw [e2] at h
      simp at h
    · omega

def SeqStop (l : List Nat) : Prop := l = [] ∨ ∃ l', l = 41 :: l'

open LogSurgeon.Seq in
theorem seq_inj : ∀ {x y : Seq} {r r' : List Nat}, x.Plain → y.Plain → SeqStop r → SeqStop r' → x.text ++ r = y.text ++ r' → x = y ∧ r = r' := by
  have hstop : ∀ {r : List Nat} {c : Nat} {l : List Nat}, SeqStop r → r = c :: l → c = 41 := by
    rintro r c l (rfl | ⟨l', rfl⟩) h
    · cases h
    · simp at h; exact h.1.symm
  have st : ∀ l, SeqStop (41 :: l) := fun l => .inr ⟨l, rfl⟩
  have n93 : ∀ (g : Bool), 93 ∉ (if g then [94] else [] : List Nat) := by intro g; cases g <;> simp
  intro x
  induction x with
  | nil =>
    intro y r r' hx hy hr hr' h
    cases y with
    | nil => exact ⟨rfl, h⟩
    | lit c k => have := hstop hr h; exact absurd this hy.1.2.1
    | wild g k => have := hstop hr h; omega
    | cls g rs k => have := hstop hr h; omega
    | or l r k => have := hstop hr h; omega
    | mult x a b k => have := hstop hr h; omega
    | cap x n k => have := hstop hr h; omega
    | neg n k => have := hstop hr h; omega
  | lit c k ih =>
    intro y r r' hx hy hr hr' h
    simp only [text, List.cons_append] at h
    cases y with
    | nil => exact absurd (hstop hr' h.symm) hx.1.2.1
    | lit c' k' =>
      simp only [text, List.cons_append, List.cons.injEq] at h
      obtain ⟨h1, h2⟩ := ih hx.2 hy.2 hr hr' h.2
      exact ⟨by rw [h.1, h1], h2⟩
    | wild g k => exact absurd (List.cons.inj h).1 hx.1.2.2.1
    | cls g rs k => exact absurd (List.cons.inj h).1 hx.1.2.2.1
    | or l r k => exact absurd (List.cons.inj h).1 hx.1.1
    | mult x a b k => exact absurd (List.cons.inj h).1 hx.1.1
    | cap x n k => exact absurd (List.cons.inj h).1 hx.1.1
    | neg n k => exact absurd (List.cons.inj h).1 hx.1.2.2.2
  | wild g k ih =>
    intro y r r' hx hy hr hr' h
    simp only [text, List.cons_append] at h
    cases y with
    | nil => have := hstop hr' h.symm; omega
    | lit c' k' => exact absurd (List.cons.inj h).1.symm hy.1.2.2.1
    | wild g' k' =>
      have h := (List.cons.inj h).2
      have h : ((if g then [94] else []) ++ [42]) ++ 93 :: (k.text ++ r) = ((if g' then [94] else []) ++ [42]) ++ 93 :: (k'.text ++ r') := by
        simpa using h
      obtain ⟨h1, h2⟩ := cut_at (by have := n93 g; simp [this]) (by have := n93 g'; simp [this]) h
      have h5 := ih (y := k') hx hy hr hr' h2
      have : g = g' := by cases g <;> cases g' <;> first | rfl | (simp at h1)
      obtain ⟨h3, h4⟩ := h5
      exact ⟨by rw [this, h3], h4⟩
    | cls g' rs k' =>
      exfalso
      have h := (List.cons.inj h).2
      have h : ((if g then [94] else []) ++ [42]) ++ 93 :: (k.text ++ r) = ((if g' then [94] else []) ++ rangesText rs) ++ 93 :: (k'.text ++ r') := by
        simpa using h
      obtain ⟨h1, h2⟩ := cut_at (by have := n93 g; simp [this]) (by have := n93 g'; have := rangesText_no hy.1; simp [*]) h
      exact bracket_wild h1
    | or l r k => have := (List.cons.inj h).1; omega
    | mult x a b k => have := (List.cons.inj h).1; omega
    | cap x n k => have := (List.cons.inj h).1; omega
    | neg n k => have := (List.cons.inj h).1; omega
  | cls g rs k ih =>
    intro y r r' hx hy hr hr' h
    simp only [text, List.cons_append] at h
    cases y with
    | nil => have := hstop hr' h.symm; omega
    | lit c' k' => exact absurd (List.cons.inj h).1.symm hy.1.2.2.1
    | wild g' k' =>
      exfalso
      have h := (List.cons.inj h).2
      have h : ((if g then [94] else []) ++ rangesText rs) ++ 93 :: (k.text ++ r) = ((if g' then [94] else []) ++ [42]) ++ 93 :: (k'.text ++ r') := by
        simpa using h
      obtain ⟨h1, h2⟩ := cut_at (by have := n93 g; have := rangesText_no hx.1; simp [*]) (by have := n93 g'; simp [this]) h
      exact bracket_wild h1.symm
    | cls g' rs' k' =>
      have h := (List.cons.inj h).2
      have h : ((if g then [94] else []) ++ rangesText rs) ++ 93 :: (k.text ++ r) = ((if g' then [94] else []) ++ rangesText rs') ++ 93 :: (k'.text ++ r') := by
        simpa using h
      obtain ⟨h1, h2⟩ := cut_at (by have := n93 g; have := rangesText_no hx.1; simp [*]) (by have := n93 g'; have := rangesText_no hy.1; simp [*]) h
      obtain ⟨h3, h4⟩ := ih hx.2 hy.2 hr hr' h2
      obtain ⟨h5, h6⟩ := bracket_cls h1
      exact ⟨by rw [h5, h6, h3], h4⟩
    | or l r k => have := (List.cons.inj h).1; omega
    | mult x a b k => have := (List.cons.inj h).1; omega
    | cap x n k => have := (List.cons.inj h).1; omega
    | neg n k => have := (List.cons.inj h).1; omega
  | or l m k ihl ihm ihk =>
    intro y r r' hx hy hr hr' h
    simp only [text, List.cons_append, List.append_assoc] at h
    cases y with
    | nil => have := hstop hr' h.symm; omega
    | lit c' k' => exact absurd (List.cons.inj h).1.symm hy.1.1
    | wild g' k' => have := (List.cons.inj h).1; omega
    | cls g' rs' k' => have := (List.cons.inj h).1; omega
    | or l' m' k' =>
      simp only [text, List.cons_append, List.append_assoc, List.cons.injEq, true_and] at h
      obtain ⟨h1, h2⟩ := ihl hx.1 hy.1 (st _) (st _) h
      simp only [List.cons.injEq, true_and] at h2
      obtain ⟨h3, h4⟩ := ihm hx.2.1 hy.2.1 (st _) (st _) h2
      simp only [List.cons.injEq, true_and] at h4
      obtain ⟨h5, h6⟩ := ihk hx.2.2 hy.2.2 hr hr' h4
      exact ⟨by rw [h1, h3, h5], h6⟩
    | mult x' a' b' k' =>
      simp only [text, List.cons_append, List.append_assoc, List.cons.injEq, true_and] at h
      obtain ⟨h1, h2⟩ := ihl hx.1 hy.1 (st _) (st _) h
      simp at h2
    | cap x' n' k' =>
      simp only [text, List.cons_append, List.append_assoc, List.cons.injEq, true_and] at h
      obtain ⟨h1, h2⟩ := ihl hx.1 hy.2.1 (st _) (st _) h
      simp at h2
    | neg n k => have := (List.cons.inj h).1; omega
  | mult x a b k ihx ihk =>
    intro y r r' hx hy hr hr' h
    simp only [text, List.cons_append, List.append_assoc] at h
    cases y with
    | nil => have := hstop hr' h.symm; omega
    | lit c' k' => exact absurd (List.cons.inj h).1.symm hy.1.1
    | wild g' k' => have := (List.cons.inj h).1; omega
    | cls g' rs' k' => have := (List.cons.inj h).1; omega
    | or l' m' k' =>
      simp only [text, List.cons_append, List.append_assoc, List.cons.injEq, true_and] at h
      obtain ⟨h1, h2⟩ := ihx hx.1 hy.1 (st _) (st _) h
      simp at h2
    | mult x' a' b' k' =>
      simp only [text, List.cons_append, List.append_assoc, List.cons.injEq, true_and] at h
      obtain ⟨h1, h2⟩ := ihx hx.1 hy.1 (st _) (st _) h
      simp only [List.cons.injEq, true_and] at h2
      have nd : ∀ {k c : Nat}, c < 48 ∨ 57 < c → c ∉ decimalText k := fun hc hm => by have := decimalText_digit hm; omega
      obtain ⟨h3, h4⟩ := cut_at (nd (by omega)) (nd (by omega)) h2
      have nb : ∀ b : Nat, 125 ∉ (if b = 0 then [105, 110, 102] else decimalText b) := by
        intro b; split
        · simp
        · exact nd (by omega)
      obtain ⟨h5, h6⟩ := cut_at (nb b) (nb b') h4
      obtain ⟨h7, h8⟩ := ihk hx.2 hy.2 hr hr' h6
      have hb : b = b' := by
        by_cases e1 : b = 0 <;> by_cases e2 : b' = 0
        · omega
        · rw [if_pos e1, if_neg e2] at h5
          have := decimalText_digit (k := b') (c := 105) (by rw [← h5]; simp)
          omega
        · rw [if_neg e1, if_pos e2] at h5
          have := decimalText_digit (k := b) (c := 105) (by rw [h5]; simp)
          omega
        · rw [if_neg e1, if_neg e2] at h5
          exact decimalText_inj h5
      exact ⟨by rw [h1, decimalText_inj h3, hb, h7], h8⟩
    | cap x' n' k' =>
      simp only [text, List.cons_append, List.append_assoc, List.cons.injEq, true_and] at h
      obtain ⟨h1, h2⟩ := ihx hx.1 hy.2.1 (st _) (st _) h
      simp at h2
    | neg n k => have := (List.cons.inj h).1; omega
  | cap x n k ihx ihk =>
    intro y r r' hx hy hr hr' h
    simp only [text, List.cons_append, List.append_assoc] at h
    cases y with
    | nil => have := hstop hr' h.symm; omega
    | lit c' k' => exact absurd (List.cons.inj h).1.symm hy.1.1
    | wild g' k' => have := (List.cons.inj h).1; omega
    | cls g' rs' k' => have := (List.cons.inj h).1; omega
    | or l' m' k' =>
      simp only [text, List.cons_append, List.append_assoc, List.cons.injEq, true_and] at h
      obtain ⟨h1, h2⟩ := ihx hx.2.1 hy.1 (st _) (st _) h
      simp at h2
    | mult x' a' b' k' =>
      simp only [text, List.cons_append, List.append_assoc, List.cons.injEq, true_and] at h
      obtain ⟨h1, h2⟩ := ihx hx.2.1 hy.1 (st _) (st _) h
      simp at h2
    | cap x' n' k' =>
      simp only [text, List.cons_append, List.append_assoc, List.cons.injEq, true_and] at h
      obtain ⟨h1, h2⟩ := ihx hx.2.1 hy.2.1 (st _) (st _) h
      simp only [List.cons.injEq, true_and] at h2
      obtain ⟨h3, h4⟩ := cut_at (ascii_gt hx.1) (ascii_gt hy.1) h2
      obtain ⟨h5, h6⟩ := ihk hx.2.2 hy.2.2 hr hr' h4
      exact ⟨by rw [h1, ascii_inj h3, h5], h6⟩
    | neg n k => have := (List.cons.inj h).1; omega
  | neg n k ih =>
    intro y r r' hx hy hr hr' h
    simp only [text, List.cons_append, List.append_assoc] at h
    cases y with
    | nil => have := hstop hr' h.symm; omega
    | lit c' k' => exact absurd (List.cons.inj h).1.symm hy.1.2.2.2
    | wild g' k' => have := (List.cons.inj h).1; omega
    | cls g' rs' k' => have := (List.cons.inj h).1; omega
    | or l' m' k' => have := (List.cons.inj h).1; omega
    | mult x' a' b' k' => have := (List.cons.inj h).1; omega
    | cap x' n' k' => have := (List.cons.inj h).1; omega
    | neg n' k' =>
      simp only [text, List.cons_append, List.append_assoc, List.cons.injEq, true_and] at h
      obtain ⟨h3, h4⟩ := cut_at (ascii_gt hx.1) (ascii_gt hy.1) h
      obtain ⟨h5, h6⟩ := ih hx.2 hy.2 hr hr' h4
      exact ⟨by rw [ascii_inj h3, h5], h6⟩


/-! From regexes to sequences. -/

def negSeq (neg : List Tag) (k : Seq) : Seq := neg.foldr (fun t k => .neg t.name k) k

/-- The regex followed by `k`. -/
def Regex.toSeq : Regex → Seq → Seq
  | .empty n, k => negSeq n k
  | .literal n c, k => .lit c (negSeq n k)
  | .integer _ _, k => k
  | .group n wild g rs, k => if wild then .wild g (negSeq n k) else .cls g rs (negSeq n k)
  | .or n l r, k => .or (l.toSeq .nil) (r.toSeq .nil) (negSeq n k)
  | .cat n l r, k => l.toSeq (r.toSeq (negSeq n k))
  | .mult n x a b, k => .mult (x.toSeq .nil) a b (negSeq n k)
  | .capture n x t, k => .cap (x.toSeq .nil) t.name (negSeq n k)

theorem negSeq_text (neg : List Tag) (k : Seq) : (negSeq neg k).text = negText neg ++ k.text := by
  induction neg with
  | nil => rfl
  | cons t neg ih =>
    show 60 :: 126 :: (ascii t.name ++ 62 :: (negSeq neg k).text) = _
    rw [ih]
    show _ = (ascii "<~" ++ ascii t.name ++ ascii ">" ++ negText neg) ++ k.text
    have h1 : ascii "<~" = [60, 126] := by decide
    have h2 : ascii ">" = [62] := by decide
    simp [h1, h2]

theorem toSeq_text (r : Regex) : r.NoInteger → ∀ k, (r.toSeq k).text = r.serialize ++ k.text := by
  have h1 : ascii "(" = [40] := by decide
  have h2 : ascii ")" = [41] := by decide
  have h3 : ascii ")|(" = [41, 124, 40] := by decide
  have h4 : ascii "){" = [41, 123] := by decide
  have h5 : ascii "," = [44] := by decide
  have h6 : ascii "inf" = [105, 110, 102] := by decide
  have h7 : ascii "}" = [125] := by decide
  have h8 : ascii ")<" = [41, 60] := by decide
  have h9 : ascii ">" = [62] := by decide
  have h10 : ascii "[" = [91] := by decide
  have h11 : ascii "]" = [93] := by decide
  have h12 : ascii "^" = [94] := by decide
  have h13 : ascii "*" = [42] := by decide
  induction r with
  | empty n => intro _ k; exact negSeq_text n k
  | literal n c => intro _ k; simp [Regex.toSeq, Regex.serialize, Seq.text, negSeq_text]
  | integer n ds => intro h; cases h
  | group n wild g rs =>
    intro _ k
    cases wild <;> simp [Regex.toSeq, Regex.serialize, Seq.text, negSeq_text, h10, h11, h12, h13]
  | or n l r ihl ihr =>
    intro h k
    simp [Regex.toSeq, Regex.serialize, Seq.text, negSeq_text, h1, h2, h3, ihl h.1, ihr h.2]
  | cat n l r ihl ihr =>
    intro h k
    simp [Regex.toSeq, Regex.serialize, negSeq_text, ihl h.1, ihr h.2]
  | mult n x a b ih =>
    intro h k
    simp [Regex.toSeq, Regex.serialize, Seq.text, negSeq_text, h1, h4, h5, h6, h7, ih h]
  | capture n x t ih =>
    intro h k
    simp [Regex.toSeq, Regex.serialize, Seq.text, negSeq_text, h1, h8, h9, ih h]

/-- The regex has the shape of an elaborated pattern: the empty regex is only an operand of an alternation. -/
def Regex.Shaped : Regex → Prop
  | .empty _ => False
  | .literal _ _ => True
  | .integer _ _ => False
  | .group _ wild g rs => wild = true → g = false ∧ rs = [(0, cUnicodeMax)]
  | .or _ l r => (l.Shaped ∨ ∃ n, l = .empty n) ∧ (r.Shaped ∨ ∃ n, r = .empty n)
  | .cat _ l r => l.Shaped ∧ r.Shaped
  | .mult _ x _ _ => x.Shaped
  | .capture _ x _ => x.Shaped

namespace Seq

/-- There is something else than negated tags. -/
def Real : Seq → Prop
  | nil => False
  | neg _ k => k.Real
  | _ => True

/-- What a sequence matches. -/
def Lang (e : Prop) : Seq → List Nat → Prop
  | nil, w => w = []
  | lit c k, w => ∃ w', w = c :: w' ∧ k.Lang e w'
  | wild _ k, w => ∃ c w', w = c :: w' ∧ ClassMatches false [(0, cUnicodeMax)] c ∧ k.Lang e w'
  | cls g rs k, w => ∃ c w', w = c :: w' ∧ ClassMatches g rs c ∧ k.Lang e w'
  | or l r k, w => ∃ w₁ w₂, w = w₁ ++ w₂ ∧ (((l.Real ∨ e) ∧ l.Lang e w₁) ∨ ((r.Real ∨ e) ∧ r.Lang e w₁)) ∧ k.Lang e w₂
  | mult x a b k, w => ∃ w₁ w₂, w = w₁ ++ w₂ ∧ (∃ i, a ≤ i ∧ (b = 0 ∨ i ≤ b) ∧ Repeat (x.Lang e) i w₁) ∧ k.Lang e w₂
  | cap x _ k, w => ∃ w₁ w₂, w = w₁ ++ w₂ ∧ x.Lang e w₁ ∧ k.Lang e w₂
  | neg _ k, w => k.Lang e w

def names : Seq → List String
  | nil => []
  | lit _ k | wild _ k | cls _ _ k | neg _ k => k.names
  | or l r k => l.names ++ (r.names ++ k.names)
  | mult x _ _ k => x.names ++ k.names
  | cap x n k => x.names ++ n :: k.names

end Seq

theorem negSeq_lang (e : Prop) (neg : List Tag) (k : Seq) (w : List Nat) : (negSeq neg k).Lang e w ↔ k.Lang e w := by
  induction neg with
  | nil => exact Iff.rfl
  | cons t neg ih => exact ih

theorem negSeq_real (neg : List Tag) (k : Seq) : (negSeq neg k).Real ↔ k.Real := by
  induction neg with
  | nil => exact Iff.rfl
  | cons t neg ih => exact ih

theorem negSeq_names (neg : List Tag) (k : Seq) : (negSeq neg k).names = k.names := by
  induction neg with
  | nil => rfl
  | cons t neg ih => exact ih

theorem toSeq_real (r : Regex) : r.Shaped → ∀ k, (r.toSeq k).Real := by
  induction r with
  | empty n => intro h; cases h
  | literal n c => intro _ k; trivial
  | integer n ds => intro h; cases h
  | group n wild g rs => intro _ k; cases wild <;> trivial
  | or n l r ihl ihr => intro _ k; trivial
  | cat n l r ihl ihr => intro h k; exact ihl h.1 _
  | mult n x a b ih => intro _ k; trivial
  | capture n x t ih => intro h k; trivial

theorem toSeq_lang (e : Prop) (r : Regex) : r.Shaped → ∀ k w,
    (r.toSeq k).Lang e w ↔ ∃ w₁ w₂, w = w₁ ++ w₂ ∧ MatchesWith e r w₁ ∧ k.Lang e w₂ := by
  have hnil : ∀ {r : Regex}, (∀ k w, (r.toSeq k).Lang e w ↔ ∃ w₁ w₂, w = w₁ ++ w₂ ∧ MatchesWith e r w₁ ∧ k.Lang e w₂) →
      ∀ w, (r.toSeq .nil).Lang e w ↔ MatchesWith e r w := by
    intro r h w
    rw [h]
    constructor
    · rintro ⟨w1, w2, rfl, h1, rfl⟩; simpa using h1
    · intro h; exact ⟨w, [], by simp, h, rfl⟩
  have halt : ∀ {r : Regex}, (r.Shaped → ∀ k w, (r.toSeq k).Lang e w ↔ ∃ w₁ w₂, w = w₁ ++ w₂ ∧ MatchesWith e r w₁ ∧ k.Lang e w₂) →
      (r.Shaped ∨ ∃ n, r = .empty n) → ∀ w, (((r.toSeq .nil).Real ∨ e) ∧ (r.toSeq .nil).Lang e w) ↔ MatchesWith e r w := by
    rintro r h (hb | ⟨n, rfl⟩) w
    · rw [hnil (h hb)]
      exact ⟨fun h => h.2, fun h => ⟨.inl (toSeq_real r hb _), h⟩⟩
    · show (((negSeq n .nil).Real ∨ e) ∧ (negSeq n .nil).Lang e w) ↔ e ∧ w = []
      rw [negSeq_real, negSeq_lang]
      show ((False ∨ e) ∧ w = []) ↔ _
      simp
  have hone : ∀ {P : Nat → Prop} {K : List Nat → Prop} {w : List Nat}, (∃ c w', w = c :: w' ∧ P c ∧ K w') ↔
      ∃ w₁ w₂, w = w₁ ++ w₂ ∧ (∃ c, w₁ = [c] ∧ P c) ∧ K w₂ := by
    intro P K w
    constructor
    · rintro ⟨c, w', rfl, h1, h2⟩; exact ⟨[c], w', rfl, ⟨c, rfl, h1⟩, h2⟩
    · rintro ⟨_, w', rfl, ⟨c, rfl, h1⟩, h2⟩; exact ⟨c, w', rfl, h1, h2⟩
  induction r with
  | empty n => intro h; cases h
  | literal n c =>
    intro _ k w
    show (∃ w', w = c :: w' ∧ (negSeq n k).Lang e w') ↔ ∃ w₁ w₂, w = w₁ ++ w₂ ∧ w₁ = [c] ∧ k.Lang e w₂
    constructor
    · rintro ⟨w', rfl, h⟩; exact ⟨[c], w', rfl, rfl, (negSeq_lang ..).mp h⟩
    · rintro ⟨_, w', rfl, rfl, h⟩; exact ⟨w', rfl, (negSeq_lang ..).mpr h⟩
  | integer n ds => intro h; cases h
  | group n wild g rs =>
    intro hb k w
    cases wild with
    | true =>
      obtain ⟨rfl, rfl⟩ := hb rfl
      show (∃ c w', w = c :: w' ∧ ClassMatches false [(0, cUnicodeMax)] c ∧ (negSeq n k).Lang e w') ↔ _
      simp only [negSeq_lang]
      exact hone
    | false =>
      show (∃ c w', w = c :: w' ∧ ClassMatches g rs c ∧ (negSeq n k).Lang e w') ↔ _
      simp only [negSeq_lang]
      exact hone
  | or n l r ihl ihr =>
    intro hb k w
    show (∃ w₁ w₂, w = w₁ ++ w₂ ∧ ((((l.toSeq .nil).Real ∨ e) ∧ (l.toSeq .nil).Lang e w₁) ∨ (((r.toSeq .nil).Real ∨ e) ∧ (r.toSeq .nil).Lang e w₁)) ∧
      (negSeq n k).Lang e w₂) ↔ _
    simp only [negSeq_lang, halt ihl hb.1, halt ihr hb.2]
    exact Iff.rfl
  | cat n l r ihl ihr =>
    intro hb k w
    show (l.toSeq (r.toSeq (negSeq n k))).Lang e w ↔ _
    rw [ihl hb.1]
    constructor
    · rintro ⟨w1, w2, rfl, h1, h2⟩
      obtain ⟨w3, w4, rfl, h3, h4⟩ := (ihr hb.2 _ _).mp h2
      exact ⟨w1 ++ w3, w4, by simp, ⟨w1, w3, rfl, h1, h3⟩, (negSeq_lang ..).mp h4⟩
    · rintro ⟨_, w4, rfl, ⟨w1, w3, rfl, h1, h3⟩, h4⟩
      exact ⟨w1, w3 ++ w4, by simp, h1, (ihr hb.2 _ _).mpr ⟨w3, w4, rfl, h3, (negSeq_lang ..).mpr h4⟩⟩
  | mult n x a b ih =>
    intro hb k w
    show (∃ w₁ w₂, w = w₁ ++ w₂ ∧ (∃ i, a ≤ i ∧ (b = 0 ∨ i ≤ b) ∧ Repeat ((x.toSeq .nil).Lang e) i w₁) ∧ (negSeq n k).Lang e w₂) ↔ _
    simp only [negSeq_lang, repeat_congr (hnil (ih hb))]
    exact Iff.rfl
  | capture n x t ih =>
    intro hb k w
    show (∃ w₁ w₂, w = w₁ ++ w₂ ∧ (x.toSeq .nil).Lang e w₁ ∧ (negSeq n k).Lang e w₂) ↔ _
    simp only [negSeq_lang, hnil (ih hb)]
    exact Iff.rfl

theorem toSeq_matches {e : Prop} {r : Regex} (h : r.Shaped) (w : List Nat) : (r.toSeq .nil).Lang e w ↔ MatchesWith e r w := by
  rw [toSeq_lang e r h]
  constructor
  · rintro ⟨w1, w2, rfl, h1, rfl⟩; simpa using h1
  · intro h; exact ⟨w, [], by simp, h, rfl⟩

/-- The captures of a regex, as the sequence lists them. -/
def Regex.tagNames : Regex → List String
  | .or _ l r | .cat _ l r => l.tagNames ++ r.tagNames
  | .mult _ x _ _ => x.tagNames
  | .capture _ x t => x.tagNames ++ [t.name]
  | _ => []

theorem toSeq_names (r : Regex) : ∀ k, (r.toSeq k).names = r.tagNames ++ k.names := by
  induction r with
  | empty n => intro k; simp [Regex.toSeq, Regex.tagNames, negSeq_names]
  | literal n c => intro k; simp [Regex.toSeq, Regex.tagNames, Seq.names, negSeq_names]
  | integer n ds => intro k; simp [Regex.toSeq, Regex.tagNames]
  | group n wild g rs => intro k; cases wild <;> simp [Regex.toSeq, Regex.tagNames, Seq.names, negSeq_names]
  | or n l r ihl ihr => intro k; simp [Regex.toSeq, Regex.tagNames, Seq.names, negSeq_names, ihl, ihr]
  | cat n l r ihl ihr => intro k; simp [Regex.toSeq, Regex.tagNames, negSeq_names, ihl, ihr]
  | mult n x a b ih => intro k; simp [Regex.toSeq, Regex.tagNames, Seq.names, negSeq_names, ih]
  | capture n x t ih => intro k; simp [Regex.toSeq, Regex.tagNames, Seq.names, negSeq_names, ih]

/-- The characters of a regex that could make its text ambiguous do not occur. -/
def Regex.PlainText : Regex → Prop
  | .empty n => ∀ t ∈ n, '>' ∉ t.name.toList
  | .literal n c => (c ≠ 40 ∧ c ≠ 41 ∧ c ≠ 91 ∧ c ≠ 60) ∧ ∀ t ∈ n, '>' ∉ t.name.toList
  | .integer n _ => ∀ t ∈ n, '>' ∉ t.name.toList
  | .group n _ _ rs => (∀ r ∈ rs, r.1 ≠ 93 ∧ r.2 ≠ 93) ∧ ∀ t ∈ n, '>' ∉ t.name.toList
  | .or n l r | .cat n l r => (l.PlainText ∧ r.PlainText) ∧ ∀ t ∈ n, '>' ∉ t.name.toList
  | .mult n x _ _ => x.PlainText ∧ ∀ t ∈ n, '>' ∉ t.name.toList
  | .capture n x t => (x.PlainText ∧ '>' ∉ t.name.toList) ∧ ∀ t ∈ n, '>' ∉ t.name.toList

theorem negSeq_plain {neg : List Tag} {k : Seq} (h : ∀ t ∈ neg, '>' ∉ t.name.toList) (hk : k.Plain) : (negSeq neg k).Plain := by
  induction neg with
  | nil => exact hk
  | cons t neg ih => exact ⟨h t (.head _), ih fun x hx => h x (.tail _ hx)⟩

theorem toSeq_plain (r : Regex) : r.PlainText → ∀ k, k.Plain → (r.toSeq k).Plain := by
  induction r with
  | empty n => intro h k hk; exact negSeq_plain h hk
  | literal n c => intro h k hk; exact ⟨h.1, negSeq_plain h.2 hk⟩
  | integer n ds => intro h k hk; exact hk
  | group n wild g rs =>
    intro h k hk
    cases wild with
    | true => exact negSeq_plain h.2 hk
    | false => exact ⟨h.1, negSeq_plain h.2 hk⟩
  | or n l r ihl ihr => intro h k hk; exact ⟨ihl h.1.1 _ trivial, ihr h.1.2 _ trivial, negSeq_plain h.2 hk⟩
  | cat n l r ihl ihr => intro h k hk; exact ihl h.1.1 _ (ihr h.1.2 _ (negSeq_plain h.2 hk))
  | mult n x a b ih => intro h k hk; exact ⟨ih h.1 _ trivial, negSeq_plain h.2 hk⟩
  | capture n x t ih => intro h k hk; exact ⟨h.1.2, ih h.1.1 _ trivial, negSeq_plain h.2 hk⟩

/-- The text of a regex determines its sequence. -/
theorem serialize_inj {r r' : Regex} (h1 : r.NoInteger) (h2 : r'.NoInteger) (p1 : r.PlainText) (p2 : r'.PlainText)
    (h : r.serialize = r'.serialize) : r.toSeq .nil = r'.toSeq .nil := by
  refine (seq_inj (r := []) (r' := []) (toSeq_plain r p1 .nil trivial) (toSeq_plain r' p2 .nil trivial) (.inl rfl) (.inl rfl) ?_).1
  rw [toSeq_text r h1, toSeq_text r' h2, h]

/-! Elaborated patterns. -/

theorem shaped_setNegTags (r : Regex) (t : List Tag) : (r.setNegTags t).Shaped ↔ r.Shaped := by cases r <;> exact Iff.rfl

theorem tagNames_setNegTags (r : Regex) (t : List Tag) : (r.setNegTags t).tagNames = r.tagNames := by cases r <;> rfl

theorem plainText_setNegTags {r : Regex} {t : List Tag} (h : r.PlainText) (ht : ∀ x ∈ t, '>' ∉ x.name.toList) : (r.setNegTags t).PlainText := by
  cases r with
  | empty n => exact ht
  | literal n c => exact ⟨h.1, ht⟩
  | integer n ds => exact ht
  | group n w g rs => exact ⟨h.1, ht⟩
  | or n l r => exact ⟨h.1, ht⟩
  | cat n l r => exact ⟨h.1, ht⟩
  | mult n x a b => exact ⟨h.1, ht⟩
  | capture n x t => exact ⟨h.1, ht⟩

theorem addItems_plain (items : List ClassItem) : ∀ {rs rs' : List Range}, addItems rs items = some rs' → (∀ i ∈ items, i.PlainChars) →
    (∀ r ∈ rs, r.1 ≠ 93 ∧ r.2 ≠ 93) → ∀ r ∈ rs', r.1 ≠ 93 ∧ r.2 ≠ 93 := by
  induction items with
  | nil => intro rs rs' h _ h0; cases h; exact h0
  | cons i is ih =>
    intro rs rs' h hp h0
    simp only [addItems, Option.bind_eq_some_iff] at h
    obtain ⟨r1, h1, h2⟩ := h
    refine ih h2 (fun x hx => hp x (.tail _ hx)) ?_
    have hi := hp i (.head _)
    intro r hr
    cases i with
    | lit a =>
      cases h1
      rcases List.mem_append.mp hr with hr | hr
      · exact h0 r hr
      · simp only [List.mem_singleton] at hr; subst hr; exact ⟨hi, hi⟩
    | range lo hi' =>
      simp only [addItem] at h1
      split at h1
      · cases h1
        rcases List.mem_append.mp hr with hr | hr
        · exact h0 r hr
        · simp only [List.mem_singleton] at hr; subst hr; exact hi
      · cases h1
    | digit =>
      cases h1
      rcases List.mem_append.mp hr with hr | hr
      · exact h0 r hr
      · simp only [List.mem_singleton] at hr; subst hr; exact ⟨by decide, by decide⟩
    | space => cases h1

/-- Elaboration gives a regex of the expected shape, with the names of the captures and without ambiguous characters. -/
theorem elab_text (p : Pat) : ∀ {r : Regex}, p.elab = some r →
    r.Shaped ∧ r.NoInteger ∧ r.tagNames = p.captureNames ∧ r.positiveTags.map (·.name) = p.captureNames ∧
    (p.PlainChars → r.PlainText ∧ ∀ t ∈ r.positiveTags, '>' ∉ t.name.toList) := by
  have hmult : ∀ {x : Regex} {a b : Nat} {names : List String} {c : Prop}, (x.Shaped ∧ x.NoInteger ∧ x.tagNames = names ∧
      x.positiveTags.map (·.name) = names ∧ (c → x.PlainText ∧ ∀ t ∈ x.positiveTags, '>' ∉ t.name.toList)) →
      (Regex.mkMult x a b).Shaped ∧ (Regex.mkMult x a b).NoInteger ∧ (Regex.mkMult x a b).tagNames = names ∧
      (Regex.mkMult x a b).positiveTags.map (·.name) = names ∧ (c → (Regex.mkMult x a b).PlainText ∧ ∀ t ∈ (Regex.mkMult x a b).positiveTags, '>' ∉ t.name.toList) := by
    rintro x a b names c ⟨h1, h2, h3, h4, h5⟩
    exact ⟨h1, h2, h3, h4, fun h => ⟨⟨(h5 h).1, by simp⟩, (h5 h).2⟩⟩
  have hopt : ∀ {x : Regex} {names : List String} {c : Prop}, (x.Shaped ∧ x.NoInteger ∧ x.tagNames = names ∧
      x.positiveTags.map (·.name) = names ∧ (c → x.PlainText ∧ ∀ t ∈ x.positiveTags, '>' ∉ t.name.toList)) →
      (Regex.mkOr .mkEmpty x).Shaped ∧ (Regex.mkOr .mkEmpty x).NoInteger ∧ (Regex.mkOr .mkEmpty x).tagNames = names ∧
      (Regex.mkOr .mkEmpty x).positiveTags.map (·.name) = names ∧
      (c → (Regex.mkOr .mkEmpty x).PlainText ∧ ∀ t ∈ (Regex.mkOr .mkEmpty x).positiveTags, '>' ∉ t.name.toList) := by
    rintro x names c ⟨h1, h2, h3, h4, h5⟩
    refine ⟨⟨.inr ⟨_, rfl⟩, .inl ((shaped_setNegTags _ _).mpr h1)⟩, ⟨trivial, (noInteger_setNegTags _ _).mpr h2⟩, ?_, ?_, fun h => ⟨⟨⟨(h5 h).2, ?_⟩, by simp⟩, ?_⟩⟩
    · simp [Regex.mkOr, Regex.mkEmpty, Regex.tagNames, tagNames_setNegTags, h3]
    · simp [Regex.mkOr, Regex.mkEmpty, Regex.positiveTags, positiveTags_setNegTags, h4]
    · exact plainText_setNegTags (h5 h).1 (by simp [Regex.mkEmpty, Regex.positiveTags])
    · simpa [Regex.mkOr, Regex.mkEmpty, Regex.positiveTags, positiveTags_setNegTags] using (h5 h).2
  induction p with
  | lit c =>
    intro r h; cases h
    exact ⟨trivial, trivial, rfl, rfl, fun h => ⟨⟨h, by simp⟩, by simp [Regex.positiveTags]⟩⟩
  | cls negate items =>
    intro r h
    simp only [Pat.elab, Option.map_eq_some_iff] at h
    obtain ⟨rs, h1, rfl⟩ := h
    exact ⟨fun h => by (cases h), trivial, rfl, rfl, fun h => ⟨⟨addItems_plain items h1 h (by simp), by simp⟩, by simp [Regex.positiveTags]⟩⟩
  | digit =>
    intro r h; cases h
    exact ⟨fun h => by (cases h), trivial, rfl, rfl, fun h => ⟨⟨by simp, by simp⟩, by simp [Regex.positiveTags]⟩⟩
  | wild =>
    intro r h; cases h
    exact ⟨fun _ => ⟨rfl, rfl⟩, trivial, rfl, rfl, fun h => ⟨⟨by simp [cUnicodeMax], by simp⟩, by simp [Regex.positiveTags]⟩⟩
  | space =>
    intro r h; cases h
    exact ⟨fun h => by (cases h), trivial, rfl, rfl, fun h => ⟨⟨by simp, by simp⟩, by simp [Regex.positiveTags]⟩⟩
  | cat l r ihl ihr =>
    intro x h
    simp only [Pat.elab, Option.bind_eq_some_iff, Option.map_eq_some_iff] at h
    obtain ⟨a, ha, b, hb, rfl⟩ := h
    obtain ⟨a1, a2, a3, a4, a5⟩ := ihl ha
    obtain ⟨b1, b2, b3, b4, b5⟩ := ihr hb
    refine ⟨⟨a1, b1⟩, ⟨a2, b2⟩, ?_, ?_, fun h => ⟨⟨⟨(a5 h.1).1, (b5 h.2).1⟩, by simp⟩, ?_⟩⟩
    · simp [Regex.mkCat, Regex.tagNames, Pat.captureNames, a3, b3]
    · simp [Regex.mkCat, Regex.positiveTags, Pat.captureNames, a4, b4]
    · intro t ht
      rcases List.mem_append.mp ht with ht | ht
      · exact (a5 h.1).2 t ht
      · exact (b5 h.2).2 t ht
  | or l r ihl ihr =>
    intro x h
    simp only [Pat.elab, Option.bind_eq_some_iff, Option.map_eq_some_iff] at h
    obtain ⟨a, ha, b, hb, rfl⟩ := h
    obtain ⟨a1, a2, a3, a4, a5⟩ := ihl ha
    obtain ⟨b1, b2, b3, b4, b5⟩ := ihr hb
    refine ⟨⟨.inl ((shaped_setNegTags _ _).mpr a1), .inl ((shaped_setNegTags _ _).mpr b1)⟩, ⟨(noInteger_setNegTags _ _).mpr a2, (noInteger_setNegTags _ _).mpr b2⟩, ?_, ?_,
      fun h => ⟨⟨⟨plainText_setNegTags (a5 h.1).1 (b5 h.2).2, plainText_setNegTags (b5 h.2).1 (a5 h.1).2⟩, by simp⟩, ?_⟩⟩
    · simp [Regex.mkOr, Regex.tagNames, tagNames_setNegTags, Pat.captureNames, a3, b3]
    · simp [Regex.mkOr, Regex.positiveTags, positiveTags_setNegTags, Pat.captureNames, a4, b4]
    · intro t ht
      simp only [Regex.mkOr, Regex.positiveTags, positiveTags_setNegTags] at ht
      rcases List.mem_append.mp ht with ht | ht
      · exact (a5 h.1).2 t ht
      · exact (b5 h.2).2 t ht
  | star p ih =>
    intro x h
    simp only [Pat.elab, Option.map_eq_some_iff] at h
    obtain ⟨a, ha, rfl⟩ := h
    exact hopt (hmult (ih ha))
  | plus p ih =>
    intro x h
    simp only [Pat.elab, Option.map_eq_some_iff] at h
    obtain ⟨a, ha, rfl⟩ := h
    exact hmult (ih ha)
  | exact p n ih =>
    intro x h
    simp only [Pat.elab, Option.bind_eq_some_iff, Option.map_eq_some_iff] at h
    obtain ⟨a, ha, j, hj, rfl⟩ := h
    exact hmult (ih ha)
  | range p n m ih =>
    intro x h
    simp only [Pat.elab, Option.bind_eq_some_iff, Option.map_eq_some_iff] at h
    obtain ⟨a, ha, j, hj, i, hi, rfl⟩ := h
    unfold rangeRule
    split
    · exact hopt (hmult (ih ha))
    · exact hmult (ih ha)
  | capture p t ih =>
    intro x h
    simp only [Pat.elab, Option.map_eq_some_iff] at h
    obtain ⟨a, ha, rfl⟩ := h
    obtain ⟨a1, a2, a3, a4, a5⟩ := ih ha
    refine ⟨a1, a2, ?_, ?_, fun h => ⟨⟨⟨(a5 h.1).1, h.2⟩, by simp⟩, ?_⟩⟩
    · simp [Regex.mkCapture, Regex.tagNames, Pat.captureNames, a3]
    · simp [Regex.mkCapture, Regex.positiveTags, Pat.captureNames, a4]
    · intro x hx
      simp only [Regex.mkCapture, Regex.positiveTags, List.mem_append, List.mem_singleton] at hx
      rcases hx with hx | rfl
      · exact (a5 h.1).2 x hx
      · exact h.2

end LogSurgeon
