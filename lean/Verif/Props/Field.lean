import Mathlib.GroupTheory.OrderOfElement
import Verif.Model.Field

/-!
# C08: the scalar field and the table of roots of unity
-/

namespace DyCAPS

theorem frModulus_pred_lt : frModulus - 1 < 2 ^ 256 := lt_of_le_of_lt (Nat.sub_le _ _) frModulus_lt

theorem orderOf_seven : orderOf (7 : Fr) = frModulus - 1 := by
  have h7 : (7 : Fr) = ((7 : ℕ) : Fr) := by norm_cast
  rw [h7]
  apply orderOf_eq_of_pow_and_pow_div_prime
  · exact Nat.sub_pos_of_lt one_lt_frModulus
  · exact powMod_eq_one one_lt_frModulus frModulus_pred_lt powMod_check.1
  · intro q hq hd
    exact powMod_ne_one one_lt_frModulus (lt_of_le_of_lt (Nat.div_le_self _ _) frModulus_pred_lt)
      (powMod_check.2 q (dvd_pred_cases hq hd))

/-- Every table entry is the power of 7 that the comment in globals.go:26-29 announces. -/
theorem table_check : scale2RootTable.length = 32 ∧
    ∀ k ∈ List.range 32, 2 ^ k ∣ frModulus - 1 ∧
      scale2RootTable[k]? = some (powMod frModulus 256 7 ((frModulus - 1) / 2 ^ k)) := by
  decide +kernel

/-- **C08.** The modulus constant of globals.go is prime. -/
theorem C08_modulus_prime : Nat.Prime frModulus := frModulus_prime

/-- **C08.** Table entry `k` exists exactly for `k < 32` and is a root of unity of exact order `2^k`. -/
theorem C08_root_table (k : ℕ) :
    (k < 32 → ∃ w : Fr, scale2Root k = some w ∧ w ^ (2 ^ k) = 1 ∧ ∀ m, 0 < m → m < 2 ^ k → w ^ m ≠ 1) ∧
    (32 ≤ k → scale2Root k = none) := by
  constructor
  · intro hk
    obtain ⟨hd, he⟩ := table_check.2 k (by simpa using hk)
    have hpow : ((powMod frModulus 256 7 ((frModulus - 1) / 2 ^ k) : ℕ) : Fr) = (7 : Fr) ^ ((frModulus - 1) / 2 ^ k) := by
      rw [powMod_eq _ _ _ _ (lt_of_le_of_lt (Nat.div_le_self _ _) frModulus_pred_lt), ZMod.natCast_mod]
      push_cast; rfl
    have hord : orderOf ((7 : Fr) ^ ((frModulus - 1) / 2 ^ k)) = 2 ^ k := by
      have hpos : 0 < frModulus - 1 := Nat.sub_pos_of_lt one_lt_frModulus
      rw [orderOf_pow_of_dvd, orderOf_seven]
      · exact Nat.div_div_self hd hpos.ne'
      · exact (Nat.div_pos (Nat.le_of_dvd hpos hd) (by positivity)).ne'
      · rw [orderOf_seven]; exact Nat.div_dvd_of_dvd hd
    refine ⟨(7 : Fr) ^ ((frModulus - 1) / 2 ^ k), ?_, ?_, ?_⟩
    · rw [scale2Root, he, Option.map_some, hpow]
    · have := pow_orderOf_eq_one ((7 : Fr) ^ ((frModulus - 1) / 2 ^ k))
      rwa [hord] at this
    · intro m hm hlt
      exact pow_ne_one_of_lt_orderOf hm.ne' (by rwa [hord])
  · intro hk
    rw [scale2Root, List.getElem?_eq_none (by rw [table_check.1]; exact hk)]; rfl

/-- The hypotheses of `C08_root_table` are met by a non-trivial entry: `k = 5`. -/
example : ∃ w : Fr, scale2Root 5 = some w ∧ w ^ 32 = 1 ∧ w ^ 16 ≠ 1 := by
  obtain ⟨w, h1, h2, h3⟩ := (C08_root_table 5).1 (by norm_num)
  exact ⟨w, h1, h2, h3 16 (by norm_num) (by norm_num)⟩

/-- **C08.** `AsFr` never maps two `uint64` to one scalar. -/
theorem C08_asFr_injective (i j : UInt64) (h : asFr i = asFr j) : i = j := by
  unfold asFr at h
  rw [ZMod.natCast_eq_natCast_iff'] at h
  have hr : 2 ^ 64 < frModulus := by decide +kernel
  have hi : i.toNat < frModulus := lt_trans i.toNat_lt hr
  have hj : j.toNat < frModulus := lt_trans j.toNat_lt hr
  rw [Nat.mod_eq_of_lt hi, Nat.mod_eq_of_lt hj] at h
  exact UInt64.toNat_inj.1 h

/-- **C08.** Every non-zero scalar is invertible. -/
theorem C08_inverse (x : Fr) (h : x ≠ 0) : ∃ y : Fr, x * y = 1 := ⟨x⁻¹, mul_inv_cancel₀ h⟩

example : (2 : Fr) ≠ 0 := by
  have h := (C08_asFr_injective 2 0).mt (by decide)
  simpa [asFr] using h

end DyCAPS
