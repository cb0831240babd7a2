import Verif.Model.Interp
import Verif.Lemmas.KZG

/-! Helper lemmas about interpolation in the exponent. -/

set_option linter.unusedSectionVars false

namespace DyCAPS

open Polynomial

variable {K G1 G2 GT : Type} [Field K] [DecidableEq K] [AddCommGroup G1] [Module K G1] [AddCommGroup G2] [Module K G2]
  [AddCommGroup GT] [Module K GT]

/-- The points `x[0..d]` are pairwise different (same as `DistinctUpTo`). -/
def Distinct' (d : ℕ) (x : List K) : Prop := ∀ i ≤ d, ∀ j ≤ d, j ≠ i → x.getD i 0 ≠ x.getD j 0

theorem firstIndices_length (n : ℕ) : (firstIndices n : List K).length = n := by simp [firstIndices]

theorem firstIndices_getD (n i : ℕ) (h : i < n) : (firstIndices n : List K).getD i 0 = ((i + 1 : ℕ) : K) := by
  rw [List.getD_eq_getElem _ _ (by simpa [firstIndices] using h)]; simp [firstIndices]

/-- `h` is a polynomial function of degree `≤ d` into the group: `h(t) = ∑ t^m • a_m`. -/
def PolyFun (d : ℕ) (h : K → G1) : Prop := ∃ a : ℕ → G1, ∀ t, h t = ∑ m ∈ Finset.range (d + 1), t ^ m • a m

theorem polyFun_interp (d : ℕ) (h : K → G1) (hh : PolyFun d h) (x : List K) (hx : Distinct' d x) (t : K) :
    ∑ i ∈ Finset.range (d + 1), lagrangeCoeff x t d i • h (x.getD i 0) = h t := by
  obtain ⟨a, ha⟩ := hh
  simp only [ha, Finset.smul_sum, smul_smul]
  rw [Finset.sum_comm]
  apply Finset.sum_congr rfl
  intro m hm
  rw [← Finset.sum_smul]
  congr 1
  have hm' : m < d + 1 := by simpa using hm
  have := lagrangeCoeff_sum x t d (X ^ m : K[X]) (by
    rw [degree_X_pow]; exact_mod_cast hm') hx
  simpa using this

theorem linComb_lagrange (d : ℕ) (h : K → G1) (hh : PolyFun d h) (x : List K) (hl : x.length = d + 1)
    (hx : Distinct' d x) (t : K) (list : List G1) (hlist : list.length = d + 1)
    (hval : ∀ i ≤ d, list.getD i 0 = h (x.getD i 0)) :
    (getLagrangeCoefficients d x t >>= fun lam => linCombG1 list lam) = .ok (h t) := by
  rw [getLagrangeCoefficients, if_neg (by simpa using hl), Go.ok_bind, linCombG1_ok _ _ (by simp [hlist]),
    ← polyFun_interp d h hh x hx t]
  congr 1
  rw [List.length_map, List.length_range]
  apply Finset.sum_congr rfl
  intro i hi
  have hi' : i < d + 1 := by simpa using hi
  rw [hval i (by omega), List.getD_eq_getElem _ _ (by simpa using hi')]
  simp

theorem mapM_ok {α β : Type} (f : α → Go β) (g : α → β) (l : List α) (h : ∀ a ∈ l, f a = .ok (g a)) :
    l.mapM f = .ok (l.map g) := by
  induction l with
  | nil => rfl
  | cons a l ih =>
    rw [List.mapM_cons, h a (by simp), Go.ok_bind, ih (fun b hb => h b (by simp [hb]))]
    rfl

theorem lagrangeTable_ok (F N : ℕ) : (lagrangeTable F N : Go (List (List K))) =
    .ok ((List.range (N + 1)).map fun i : ℕ =>
      (List.range (2 * F + 1)).map (lagrangeCoeff (firstIndices (2 * F + 1)) ((i : ℕ) : K) (2 * F))) := by
  apply mapM_ok
  intro i _
  rw [getLagrangeCoefficients, if_neg (by simp [firstIndices_length])]

/-- `InterpolateComOrWit` evaluates a polynomial family at any target, if 1..2F+1 are different scalars. -/
theorem interpolateComOrWit_ok (F N : ℕ) (hN : 3 * F + 1 ≤ N) (table : List (List K)) (ht : lagrangeTable F N = .ok table)
    (hx : Distinct' (2 * F) (firstIndices (2 * F + 1) : List K)) (h : K → G1) (hh : PolyFun (2 * F) h) (list : List G1)
    (hlist : list.length = 2 * F + 1) (hval : ∀ k, 1 ≤ k → k ≤ 2 * F + 1 → list.getD (k - 1) 0 = h (k : K)) (target : ℕ) :
    interpolateComOrWit F table (2 * F) target list = .ok (h (target : K)) := by
  have hval' : ∀ i ≤ 2 * F, list.getD i 0 = h ((firstIndices (2 * F + 1) : List K).getD i 0) := by
    intro i hi
    rw [firstIndices_getD _ _ (by omega)]
    simpa using hval (i + 1) (by omega) (by omega)
  have hlin := linComb_lagrange (2 * F) h hh (firstIndices (2 * F + 1)) (firstIndices_length _) hx (target : K) list hlist hval'
  unfold interpolateComOrWit
  by_cases h1 : 0 < target ∧ target ≤ 2 * F + 1
  · rw [if_pos h1, idx_of_lt (by simp; omega)]
    have := hval target (by omega) h1.2
    rw [← this]; simp
  · rw [if_neg h1]
    by_cases h2 : target ≤ 3 * F + 1 ∧ 2 * F = 2 * F
    · rw [if_pos h2]
      rw [lagrangeTable_ok] at ht
      have ht' := Except.ok.inj ht
      subst ht'
      rw [idx_of_lt (by simp; omega), Go.ok_bind]
      rw [getLagrangeCoefficients, if_neg (by simp [firstIndices_length]), Go.ok_bind] at hlin
      simpa using hlin
    · rw [if_neg h2]; exact hlin

theorem isSimpleLoop_ok (known : List K) (n i : ℕ) (h : i + n ≤ known.length) :
    isSimpleLoop known n i = .ok (decide (∀ j, i ≤ j → j < i + n → known.getD j 0 = ((j + 1 : ℕ) : K))) := by
  induction n generalizing i with
  | zero =>
    simp only [isSimpleLoop]
    congr 1
    symm
    rw [decide_eq_true_eq]
    intro j h1 h2; omega
  | succ n ih =>
    rw [isSimpleLoop, idx_of_lt (by omega), Go.ok_bind]
    by_cases hk : known[i] = ((i + 1 : ℕ) : K)
    · rw [if_neg (by simpa using hk), ih (i + 1) (by omega)]
      congr 1
      rw [decide_eq_decide]
      constructor
      · intro hj j h1 h2
        rcases Nat.eq_or_lt_of_le h1 with h3 | h3
        · subst h3; rw [List.getD_eq_getElem _ _ (by omega)]; exact hk
        · exact hj j (by omega) (by omega)
      · intro hj j h1 h2
        exact hj j (by omega) (by omega)
    · rw [if_pos hk]
      congr 1
      symm
      rw [decide_eq_false_iff_not]
      intro hj
      have := hj i le_rfl (by omega)
      rw [List.getD_eq_getElem _ _ (by omega)] at this
      exact hk this

theorem interpolateByKnownIndexes_ok (F N : ℕ) (hN : 3 * F + 1 ≤ N) (table : List (List K)) (ht : lagrangeTable F N = .ok table)
    (hx : Distinct' (2 * F) (firstIndices (2 * F + 1) : List K)) (h : K → G1) (hh : PolyFun (2 * F) h) (known : List K)
    (hkl : known.length = 2 * F + 1) (hk : Distinct' (2 * F) known) (list : List G1)
    (hlist : list.length = 2 * F + 1) (hval : ∀ i ≤ 2 * F, list.getD i 0 = h (known.getD i 0)) (target : ℕ) :
    interpolateByKnownIndexes F table (2 * F) target known list = .ok (h (target : K)) := by
  unfold interpolateByKnownIndexes
  rw [isSimpleLoop_ok _ _ _ (by omega), Go.ok_bind]
  by_cases hs : ∀ j, 0 ≤ j → j < 0 + (2 * F + 1) → known.getD j 0 = ((j + 1 : ℕ) : K)
  · rw [if_pos (by simpa using hs)]
    apply interpolateComOrWit_ok F N hN table ht hx h hh list hlist
    intro k h1 h2
    have := hs (k - 1) (by omega) (by omega)
    rw [hval (k - 1) (by omega), this]
    congr 2; omega
  · rw [if_neg (by simpa using hs)]
    exact linComb_lagrange (2 * F) h hh known hkl hk _ list hlist hval

theorem sliceX_length (b : ℕ → ℕ → K) (dx dy : ℕ) (y : K) : (sliceX b dx dy y).length = dx + 1 := by simp [sliceX]
theorem sliceY_length (b : ℕ → ℕ → K) (dx dy : ℕ) (x : K) : (sliceY b dx dy x).length = dy + 1 := by simp [sliceY]

theorem sliceX_getD (b : ℕ → ℕ → K) (dx dy : ℕ) (y : K) (i : ℕ) (hi : i < dx + 1) :
    (sliceX b dx dy y).getD i 0 = ∑ j ∈ Finset.range (dy + 1), b i j * y ^ j := by
  rw [List.getD_eq_getElem _ _ (by rw [sliceX_length]; exact hi)]; simp [sliceX]

theorem sliceY_getD (b : ℕ → ℕ → K) (dx dy : ℕ) (x : K) (j : ℕ) (hj : j < dy + 1) :
    (sliceY b dx dy x).getD j 0 = ∑ i ∈ Finset.range (dx + 1), b i j * x ^ i := by
  rw [List.getD_eq_getElem _ _ (by rw [sliceY_length]; exact hj)]; simp [sliceY]

theorem polyVal_sliceX (b : ℕ → ℕ → K) (dx dy : ℕ) (x y : K) : polyVal (sliceX b dx dy y) x = biVal b dx dy x y := by
  rw [polyVal, sliceX_length, biVal]
  apply Finset.sum_congr rfl
  intro i hi
  rw [sliceX_getD b dx dy y i (by simpa using hi), Finset.sum_mul]
  apply Finset.sum_congr rfl
  intro j _; ring

theorem polyVal_sliceY (b : ℕ → ℕ → K) (dx dy : ℕ) (x y : K) : polyVal (sliceY b dx dy x) y = biVal b dx dy x y := by
  rw [polyVal, sliceY_length, biVal, Finset.sum_comm]
  apply Finset.sum_congr rfl
  intro j hj
  rw [sliceY_getD b dx dy x j (by simpa using hj), Finset.sum_mul]

/-- Commitments to `B(·,t)` are a polynomial function of `t`. -/
theorem polyFun_commit (pp : Pairing K G1 G2 GT) (b : ℕ → ℕ → K) (dx dy : ℕ) (s : K) :
    PolyFun dy fun t => polyVal (sliceX b dx dy t) s • pp.g1 := by
  refine ⟨fun m => (∑ i ∈ Finset.range (dx + 1), b i m * s ^ i) • pp.g1, fun t => ?_⟩
  beta_reduce
  rw [polyVal_sliceX, biVal, Finset.sum_comm, Finset.sum_smul]
  apply Finset.sum_congr rfl
  intro j _
  rw [smul_smul, Finset.mul_sum]
  congr 1
  apply Finset.sum_congr rfl
  intro i _; ring

/-- Witnesses of `B(·,t)` at a fixed point are a polynomial function of `t`. -/
theorem polyFun_witness (pp : Pairing K G1 G2 GT) (b : ℕ → ℕ → K) (dx dy : ℕ) (x s : K) :
    PolyFun dy fun t => quotVal (sliceX b dx dy t) x s • pp.g1 := by
  refine ⟨fun m => (∑ i ∈ Finset.range (dx + 1), b i m * ∑ j ∈ Finset.range i, s ^ j * x ^ (i - 1 - j)) • pp.g1, fun t => ?_⟩
  have : quotVal (sliceX b dx dy t) x s = ∑ m ∈ Finset.range (dy + 1),
      t ^ m * ∑ i ∈ Finset.range (dx + 1), b i m * ∑ j ∈ Finset.range i, s ^ j * x ^ (i - 1 - j) := by
    rw [quotVal, sliceX_length]
    simp only [Finset.mul_sum (s := Finset.range (dx+1))]
    rw [Finset.sum_comm (s := Finset.range (dy + 1))]
    apply Finset.sum_congr rfl
    intro i hi
    rw [sliceX_getD b dx dy t i (by simpa using hi), Finset.sum_mul]
    apply Finset.sum_congr rfl
    intro m _; ring
  beta_reduce
  rw [this, Finset.sum_smul]
  apply Finset.sum_congr rfl
  intro m _
  rw [mul_smul]

end DyCAPS
