import Mathlib.Data.Nat.Bitwise
import Mathlib.Data.Nat.Log
import Mathlib.Data.Nat.Size
import Mathlib.Tactic.IntervalCases
import Mathlib.Data.List.GetD
import Verif.Model.BitRev

/-! Lemmas about bit reversal. -/

namespace DyCAPS

theorem revMask_and {v i : ℕ} (hi : i < 5) (hv : v < 2 ^ 32) : v &&& revMask i = 0 ↔ v < 2 ^ 2 ^ i := by
  have hb : 2 ^ i < 32 := by interval_cases i <;> norm_num
  have hm : ∀ j, (revMask i).testBit j = (decide (j < 32) && decide (2 ^ i ≤ j)) := by
    intro j
    have : revMask i = 2 ^ 32 - (2 ^ 2 ^ i - 1 + 1) := by
      unfold revMask
      have : 2 ^ 2 ^ i ≤ 2 ^ 32 := Nat.pow_le_pow_right (by norm_num) hb.le
      omega
    rw [this, Nat.testBit_two_pow_sub_succ (by
      have : 2 ^ 2 ^ i ≤ 2 ^ 32 := Nat.pow_le_pow_right (by norm_num) hb.le
      have : 0 < 2 ^ 2 ^ i := by positivity
      omega), Nat.testBit_two_pow_sub_one]
    by_cases h : j < 2 ^ i <;> simp [h] <;> omega
  constructor
  · intro h
    refine Nat.lt_pow_two_of_testBit _ fun j hj => ?_
    by_cases hj32 : j < 32
    · have := congrArg (fun x => x.testBit j) h
      simpa [hm, hj32, hj] using this
    · exact Nat.testBit_lt_two_pow (lt_of_lt_of_le hv (Nat.pow_le_pow_right (by norm_num) (by omega)))
  · intro h
    refine Nat.eq_of_testBit_eq fun j => ?_
    rw [Nat.testBit_and, hm, Nat.zero_testBit]
    by_cases hj : 2 ^ i ≤ j
    · rw [Nat.testBit_lt_two_pow (lt_of_lt_of_le h (Nat.pow_le_pow_right (by norm_num) hj)), Bool.false_and]
    · simp [hj]

/-- The binary search finds the position of the highest bit. -/
theorem bitIndex_eq {v : ℕ} (h0 : 0 < v) (hv : v < 2 ^ 32) : bitIndex v = Nat.log 2 v := by
  -- one step: the number of skipped bits is recorded
  have step : ∀ (i v out : ℕ), i < 5 → 0 < v → v < 2 ^ 2 ^ (i + 1) →
      0 < (bitIndexStep (v, out) i).1 ∧ (bitIndexStep (v, out) i).1 < 2 ^ 2 ^ i ∧
      ((bitIndexStep (v, out) i).2 = out ∧ Nat.log 2 v = Nat.log 2 (bitIndexStep (v, out) i).1 ∨
        (bitIndexStep (v, out) i).2 = out ||| 2 ^ i ∧ Nat.log 2 v = 2 ^ i + Nat.log 2 (bitIndexStep (v, out) i).1) := by
    intro i v out hi h0 hv
    have hv32 : v < 2 ^ 32 := lt_of_lt_of_le hv (Nat.pow_le_pow_right (by norm_num) (by
      calc 2 ^ (i + 1) ≤ 2 ^ 5 := Nat.pow_le_pow_right (by norm_num) (by omega)
        _ = 32 := rfl))
    unfold bitIndexStep
    by_cases h : v &&& revMask i = 0
    · simp only [h, ne_eq, not_true_eq_false, if_false]
      exact ⟨h0, (revMask_and hi hv32).1 h, Or.inl (by simp)⟩
    · simp only [ne_eq, h, not_false_eq_true, if_true]
      have hge : 2 ^ 2 ^ i ≤ v := by rw [revMask_and hi hv32] at h; omega
      rw [Nat.shiftRight_eq_div_pow]
      have hpos : 0 < v / 2 ^ 2 ^ i := Nat.div_pos hge (by positivity)
      refine ⟨hpos, ?_, Or.inr ⟨by simp, ?_⟩⟩
      · rw [Nat.div_lt_iff_lt_mul (by positivity), ← pow_add, ← two_mul, ← pow_succ']
        exact hv
      · rw [Nat.log_eq_iff (Or.inr ⟨by norm_num, h0.ne'⟩)]
        have h1 := Nat.pow_log_le_self 2 hpos.ne'
        have h2 := Nat.lt_pow_succ_log_self (b := 2) (by norm_num) (v / 2 ^ 2 ^ i)
        rw [Nat.le_div_iff_mul_le (by positivity)] at h1
        rw [Nat.div_lt_iff_lt_mul (by positivity)] at h2
        rw [add_assoc, pow_add, pow_add 2 (2 ^ i) (_ + 1)]
        rw [mul_comm] at h1 h2
        exact ⟨h1, h2⟩
  rw [bitIndex, if_neg h0.ne']
  simp only [List.foldl_cons, List.foldl_nil]
  obtain ⟨p4, q4, r4⟩ := step 4 v 0 (by norm_num) h0 (by simpa using hv)
  generalize hs4 : bitIndexStep (v, 0) 4 = s4 at *
  obtain ⟨v4, o4⟩ := s4
  obtain ⟨p3, q3, r3⟩ := step 3 v4 o4 (by norm_num) p4 q4
  generalize hs3 : bitIndexStep (v4, o4) 3 = s3 at *
  obtain ⟨v3, o3⟩ := s3
  obtain ⟨p2, q2, r2⟩ := step 2 v3 o3 (by norm_num) p3 q3
  generalize hs2 : bitIndexStep (v3, o3) 2 = s2 at *
  obtain ⟨v2, o2⟩ := s2
  obtain ⟨p1, q1, r1⟩ := step 1 v2 o2 (by norm_num) p2 q2
  generalize hs1 : bitIndexStep (v2, o2) 1 = s1 at *
  obtain ⟨v1, o1⟩ := s1
  obtain ⟨p0, q0, r0⟩ := step 0 v1 o1 (by norm_num) p1 q1
  generalize hs0 : bitIndexStep (v1, o1) 0 = s0 at *
  obtain ⟨v0, o0⟩ := s0
  simp only at *
  have e0 : v0 = 1 := by simp at q0; omega
  subst e0
  clear hs4 hs3 hs2 hs1 hs0 step p4 q4 p3 q3 p2 q2 p1 q1 p0 q0
  rw [Nat.log_one_right] at r0
  rcases r4 with ⟨rfl, e4⟩ | ⟨rfl, e4⟩ <;> rcases r3 with ⟨rfl, e3⟩ | ⟨rfl, e3⟩ <;> rcases r2 with ⟨rfl, e2⟩ | ⟨rfl, e2⟩ <;>
    rcases r1 with ⟨rfl, e1⟩ | ⟨rfl, e1⟩ <;> rcases r0 with ⟨rfl, e0⟩ | ⟨rfl, e0⟩ <;> rw [e4, e3, e2, e1, e0] <;> rfl

theorem revByte_table : revByte.length = 256 ∧ (∀ b : Fin 256, revByte.getD b 0 < 256) ∧ ∀ (b : Fin 256) (i : Fin 8), (revByte.getD b 0).testBit i = (b : ℕ).testBit (7 - i) := by
  refine ⟨?_, ?_, ?_⟩ <;> decide +kernel

theorem revByte_bit (b i : ℕ) : (revByte.getD (b % 256) 0).testBit i = (decide (i < 8) && b.testBit (7 - i)) := by
  have hb : b % 256 < 256 := Nat.mod_lt _ (by norm_num)
  by_cases hi : i < 8
  · have := revByte_table.2.2 ⟨b % 256, hb⟩ ⟨i, hi⟩
    simp only at this
    rw [this, show 256 = 2 ^ 8 from rfl, Nat.testBit_mod_two_pow]
    simp [hi, show 7 - i < 8 by omega]
  · rw [Nat.testBit_lt_two_pow (lt_of_lt_of_le (revByte_table.2.1 ⟨b % 256, hb⟩) (by
      calc 256 = 2 ^ 8 := rfl
        _ ≤ 2 ^ i := Nat.pow_le_pow_right (by norm_num) (by omega)))]
    simp [hi]

/-- All 32 bits are reversed. -/
theorem reverseBits_testBit (b i : ℕ) : (reverseBits b).testBit i = (decide (i < 32) && b.testBit (31 - i)) := by
  simp only [reverseBits, Nat.testBit_or, Nat.testBit_shiftLeft, revByte_bit, Nat.testBit_shiftRight]
  by_cases h1 : i < 8
  · simp [show ¬ 24 ≤ i by omega, show ¬ 16 ≤ i by omega, show ¬ 8 ≤ i by omega, h1, show i < 32 by omega, show 24 + (7 - i) = 31 - i by omega]
  by_cases h2 : i < 16
  · simp [show ¬ 24 ≤ i by omega, show ¬ 16 ≤ i by omega, show 8 ≤ i by omega, h1, show i < 32 by omega, show 16 + (7 - (i - 8)) = 31 - i by omega, show i - 8 < 8 by omega]
  by_cases h3 : i < 24
  · simp [show ¬ 24 ≤ i by omega, show 16 ≤ i by omega, show 8 ≤ i by omega, h1, show i < 32 by omega, show ¬ i - 8 < 8 by omega, show 8 + (7 - (i - 16)) = 31 - i by omega, show i - 16 < 8 by omega]
  by_cases h4 : i < 32
  · simp [show 24 ≤ i by omega, show 16 ≤ i by omega, show 8 ≤ i by omega, h1, h4, show ¬ i - 8 < 8 by omega, show (7 - (i - 24)) = 31 - i by omega, show ¬ i - 16 < 8 by omega, show i - 24 < 8 by omega]
  · simp [h1, h4, show ¬ i - 8 < 8 by omega, show ¬ i - 16 < 8 by omega, show ¬ i - 24 < 8 by omega]

/-- The reversal of the lowest `k` bits. -/
theorem reverseBits_shift {k : ℕ} (hk : k ≤ 32) (b i : ℕ) : (reverseBits b >>> (32 - k)).testBit i = (decide (i < k) && b.testBit (k - 1 - i)) := by
  rw [Nat.testBit_shiftRight, reverseBits_testBit]
  by_cases h : i < k
  · simp [h, show 32 - k + i < 32 by omega, show 31 - (32 - k + i) = k - 1 - i by omega]
  · simp [h, show ¬ 32 - k + i < 32 by omega]

theorem reverseBits_shift_lt {k : ℕ} (hk : k ≤ 32) (b : ℕ) : reverseBits b >>> (32 - k) < 2 ^ k := by
  refine Nat.lt_pow_two_of_testBit _ fun j hj => ?_
  rw [reverseBits_shift hk]
  simp; omega

theorem reverseBits_shift_shift {k : ℕ} (hk : k ≤ 32) {b : ℕ} (hb : b < 2 ^ k) : reverseBits (reverseBits b >>> (32 - k)) >>> (32 - k) = b := by
  refine Nat.eq_of_testBit_eq fun i => ?_
  rw [reverseBits_shift hk, reverseBits_shift hk]
  by_cases h : i < k
  · simp [h, show k - 1 - i < k by omega, show k - 1 - (k - 1 - i) = i by omega]
  · rw [Nat.testBit_lt_two_pow (i := i) (lt_of_lt_of_le hb (Nat.pow_le_pow_right (by norm_num) (by omega)))]
    simp [h]

section
variable {α : Type}

theorem swapAt_ok (v : List α) {i j : ℕ} (hi : i < v.length) (hj : j < v.length) :
    ∃ v', swapAt v i j = .ok v' ∧ v'.length = v.length ∧ ∀ m, v'[m]? = if m = j then v[i]? else if m = i then v[j]? else v[m]? := by
  refine ⟨(v.set i v[j]).set j v[i], ?_, by simp, fun m => ?_⟩
  · rw [swapAt, idx_of_lt hi, Go.ok_bind, idx_of_lt hj, Go.ok_bind]
    rfl
  · rw [List.getElem?_set]
    simp only [List.length_set, hj, if_true]
    by_cases h1 : m = j
    · subst h1; simp [hi]
    · rw [if_neg (Ne.symm h1), if_neg h1, List.getElem?_set]
      by_cases h2 : m = i
      · subst h2; simp [hi, hj]
      · rw [if_neg (Ne.symm h2), if_neg h2]

/-- Swapping every pair `(ρ i, i)` with `i < ρ i` permutes by `ρ`, if `ρ` is an involution below `n` and maps everything else below `n`. -/
theorem swap_fold (ρ : ℕ → ℕ) (n : ℕ) (hlt : ∀ i, ρ i < n) (hinv : ∀ i < n, ρ (ρ i) = i) (v : List α) (hn : n ≤ v.length) : ∀ m ≤ v.length,
    ∃ v', (List.range m).foldlM (fun v i => if ρ i > i then swapAt v (ρ i) i else pure v) v = .ok v' ∧ v'.length = v.length ∧
      ∀ j, v'[j]? = if j < n ∧ min j (ρ j) < m then v[ρ j]? else v[j]?
  | 0, _ => ⟨v, rfl, rfl, fun j => by simp⟩
  | m + 1, hm => by
    obtain ⟨v', h1, h2, h3⟩ := swap_fold ρ n hlt hinv v hn m (by omega)
    rw [List.range_succ, List.foldlM_append, h1, Go.ok_bind, List.foldlM_cons]
    simp only [List.foldlM_nil]
    by_cases hgt : ρ m > m
    · have hmn : m < n := lt_trans hgt (hlt m)
      obtain ⟨v'', s1, s2, s3⟩ := swapAt_ok v' (i := ρ m) (j := m) (by rw [h2]; exact lt_of_lt_of_le (hlt m) hn) (by omega)
      refine ⟨v'', by rw [if_pos hgt, s1]; rfl, s2.trans h2, fun j => ?_⟩
      rw [s3]
      by_cases e1 : j = m
      · subst e1
        rw [if_pos rfl, h3, if_neg, if_pos ⟨hmn, by omega⟩]
        rw [hinv j hmn]; omega
      · rw [if_neg e1]
        by_cases e2 : j = ρ m
        · subst e2
          rw [if_pos rfl, h3, hinv m hmn, if_neg (by omega), if_pos ⟨hlt m, by omega⟩]
        · rw [if_neg e2, h3]
          by_cases hj : j < n
          · have : ρ j ≠ m := by
              intro h
              apply e2
              rw [← h, hinv j hj]
            refine if_congr ?_ rfl rfl
            omega
          · simp [hj]
    · refine ⟨v', by rw [if_neg hgt]; rfl, h2, fun j => ?_⟩
      rw [h3]
      by_cases hj : j < n
      · by_cases e1 : j = m
        · subst e1
          rcases lt_or_eq_of_le (not_lt.1 hgt) with h | h
          · refine if_congr ?_ rfl rfl
            omega
          · rw [h]; simp
        · by_cases e2 : ρ j = m
          · have hm' : ρ m = j := by rw [← e2, hinv j hj]
            refine if_congr ?_ rfl rfl
            omega
          · refine if_congr ?_ rfl rfl
            omega
      · simp [hj]

end

end DyCAPS
