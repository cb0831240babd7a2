import Verif.Model.BackendsCalc
import Verif.Lemmas.Kilic

/-!
Decimal text read with the base taken from the text.
-/

namespace DyCAPS

theorem digitOf_char {d : ℕ} (h : d < 10) : digitOf (Char.ofNat (48 + d)) = some d := by
  interval_cases d <;> decide

/-- The reading loop on decimal digits. -/
def readLoop (b : ℕ) (s : List Char) : Option ℕ :=
  s.foldl (fun acc c => acc.bind fun a => (digitOf c).bind fun d => if d < b then some (a * b + d) else none) (some 0)

theorem readLoop_digits (b : ℕ) (l : List ℕ) (h : ∀ d ∈ l, d < 10) : readLoop b (l.map fun d => Char.ofNat (48 + d)).reverse = if ∀ d ∈ l, d < b then some (Nat.ofDigits b l) else none := by
  induction l with
  | nil => rfl
  | cons d l ih =>
    have ih := ih fun e he => h e (List.mem_cons_of_mem _ he)
    unfold readLoop at ih ⊢
    rw [List.map_cons, List.reverse_cons, List.foldl_append, ih, List.foldl_cons, List.foldl_nil, digitOf_char (h d List.mem_cons_self)]
    by_cases h1 : ∀ e ∈ l, e < b
    · rw [if_pos h1, Option.bind_some, Option.bind_some]
      by_cases h2 : d < b
      · rw [if_pos h2, if_pos (by simpa using ⟨h2, h1⟩), Nat.ofDigits_cons]
        congr 1
        ring
      · rw [if_neg h2, if_neg (fun e => h2 (e d List.mem_cons_self))]
    · rw [if_neg h1, Option.bind_none, if_neg (fun e => h1 fun x hx => e x (List.mem_cons_of_mem _ hx))]

theorem decimal_ne_nil (n : ℕ) : decimal n ≠ [] := by
  obtain ⟨d, s, -, h⟩ := decimal_cons n
  rw [h]
  exact List.cons_ne_nil _ _

/-- Decimal digits read in another base. -/
theorem readBase_decimal (b n : ℕ) (hn : n ≠ 0) : readBase b (decimal n) = if ∀ d ∈ Nat.digits 10 n, d < b then some (Nat.ofDigits b (Nat.digits 10 n)) else none := by
  have hne := decimal_ne_nil n
  unfold readBase
  rw [if_neg hne]
  have := readLoop_digits b (Nat.digits 10 n) fun d hd => Nat.digits_lt_base (by norm_num) hd
  unfold readLoop at this
  rw [← this]
  unfold decimal
  rw [if_neg hn]

theorem readBase_ten (n : ℕ) : readBase 10 (decimal n) = some n := by
  by_cases hn : n = 0
  · subst hn; decide
  · rw [readBase_decimal 10 n hn, if_pos fun d hd => Nat.digits_lt_base (by norm_num) hd, Nat.ofDigits_digits]

/-- The first digit of a positive number is not 0. -/
theorem decimal_head {n : ℕ} (hn : n ≠ 0) : ∃ d s, 1 ≤ d ∧ d < 10 ∧ decimal n = Char.ofNat (48 + d) :: s := by
  have hne : Nat.digits 10 n ≠ [] := fun h => hn (Nat.digits_eq_nil_iff_eq_zero.1 h)
  refine ⟨(Nat.digits 10 n).getLast hne, (((Nat.digits 10 n).dropLast).map fun d => Char.ofNat (48 + d)).reverse, ?_, Nat.digits_lt_base (by norm_num) (List.getLast_mem hne), ?_⟩
  · have := Nat.getLast_digit_ne_zero 10 hn
    omega
  · unfold decimal
    rw [if_neg hn]
    conv_lhs => rw [← List.dropLast_append_getLast hne]
    rw [List.map_append, List.reverse_append]
    rfl

theorem readUnsigned_decimal (n : ℕ) : readUnsigned (decimal n) = some n := by
  by_cases hn : n = 0
  · subst hn; decide
  · have h10 := readBase_ten n
    obtain ⟨d, s, h1, h2, h⟩ := decimal_head hn
    rw [h] at h10 ⊢
    have hz : Char.ofNat (48 + d) ≠ '0' := by interval_cases d <;> decide
    unfold readUnsigned
    split
    · rename_i heq; exact absurd (List.cons.inj heq).1 hz
    · rename_i heq; exact absurd (List.cons.inj heq).1 hz
    · exact h10

theorem readText_decimal (n : ℕ) : readText (decimal n) = some (n : ℤ) ∧ readText ('+' :: decimal n) = some (n : ℤ) ∧ readText ('-' :: decimal n) = some (-(n : ℤ)) := by
  have hr := readUnsigned_decimal n
  refine ⟨?_, ?_, ?_⟩
  · obtain ⟨d, s, hd, h⟩ := decimal_cons n
    rw [h] at hr ⊢
    have h1 : Char.ofNat (48 + d) ≠ '-' := by interval_cases d <;> decide
    have h2 : Char.ofNat (48 + d) ≠ '+' := by interval_cases d <;> decide
    unfold readText
    split
    · rename_i heq; exact absurd (List.cons.inj heq).1 h1
    · rename_i heq; exact absurd (List.cons.inj heq).1 h2
    · rw [hr, Option.map_some]
  · simp only [readText, hr, Option.map_some]
  · simp only [readText, hr, Option.map_some]

/-- Behind a leading 0 the digits are read in base 8. -/
theorem readText_zero (n : ℕ) : readText ('0' :: decimal n) = (readBase 8 (decimal n)).map fun m : ℕ => (m : ℤ) := by
  obtain ⟨d, s, hd, h⟩ := decimal_cons n
  have e : readUnsigned ('0' :: decimal n) = readBase 8 (decimal n) := by
    rw [h]
    have h1 : ¬ (Char.ofNat (48 + d) = 'x' ∨ Char.ofNat (48 + d) = 'X') := by interval_cases d <;> decide
    have h2 : ¬ (Char.ofNat (48 + d) = 'b' ∨ Char.ofNat (48 + d) = 'B') := by interval_cases d <;> decide
    have h3 : ¬ (Char.ofNat (48 + d) = 'o' ∨ Char.ofNat (48 + d) = 'O') := by interval_cases d <;> decide
    unfold readUnsigned
    split
    · rename_i heq
      simp at heq
    · rename_i c t _ heq
      obtain ⟨-, h5⟩ := List.cons.inj heq
      obtain ⟨rfl, rfl⟩ := List.cons.inj h5
      rw [if_neg h1, if_neg h2, if_neg h3]
    · rename_i h7
      exact absurd rfl (h7 _ _)
  rw [← e]
  rfl

theorem ofDigits_mono {a b : ℕ} (h : a ≤ b) (l : List ℕ) : Nat.ofDigits a l ≤ Nat.ofDigits b l := by
  induction l with
  | nil => exact le_rfl
  | cons d l ih =>
    rw [Nat.ofDigits_cons, Nat.ofDigits_cons]
    exact Nat.add_le_add_left (Nat.mul_le_mul h ih) _

/-- The octal reading of decimal digits is the number only if there is one digit below 8. -/
theorem readBase_eight (n : ℕ) : readBase 8 (decimal n) = some n ↔ n < 8 := by
  by_cases hn : n = 0
  · subst hn; decide
  rw [readBase_decimal 8 n hn]
  have hd := Nat.digits_def' (b := 10) (by norm_num) (Nat.pos_of_ne_zero hn)
  constructor
  · intro h
    split at h
    · rename_i hall
      have he := Option.some.inj h
      have h10 := Nat.ofDigits_digits 10 n
      rw [hd, Nat.ofDigits_cons] at he h10
      have hm := ofDigits_mono (show 8 ≤ 10 by norm_num) (Nat.digits 10 (n / 10))
      rw [Nat.ofDigits_digits] at hm h10
      have h8 := hall (n % 10) (by rw [hd]; exact List.mem_cons_self)
      omega
    · cases h
  · intro h
    have hs : Nat.digits 10 n = [n] := Nat.digits_of_lt 10 n hn (by omega)
    rw [hs, if_pos (by simpa using h), Nat.ofDigits_singleton]

end DyCAPS
