import Mathlib.Tactic.FinCases
import Verif.Model.Field
import Verif.Lemmas.Poly

/-!
# C09, C10, C11, C13: polynomial helpers

The spec vocabulary is `polyVal` (value of a coefficient list) from `Verif.Spec.Poly`.
-/

namespace DyCAPS

open Polynomial

/-- **C09.** `EvalPolyAt` is polynomial evaluation, for every coefficient list and point. -/
theorem C09_evalPolyAt (c : List Fr) (x : Fr) :
    evalPolyAt c x = ∑ i ∈ Finset.range c.length, c.getD i 0 * x ^ i := evalPolyAt_eq c x

/-- 5 + 7·x² at x = 3 is 68. -/
example : evalPolyAt ([5, 0, 7] : List Fr) 3 = 68 := by
  rw [C09_evalPolyAt]; simp [Finset.sum_range_succ]; norm_num

/-- The points `x[0..d]` are pairwise different. -/
def DistinctUpTo {K : Type*} [Zero K] (d : ℕ) (x : List K) : Prop :=
  ∀ i ≤ d, ∀ j ≤ d, j ≠ i → x.getD i 0 ≠ x.getD j 0

/-- **C10.** On `d+1` pairwise distinct points `LagrangeInterpolate` returns the coefficients of a polynomial of degree
at most `d` through all of them, and it is the only coefficient list of that length with this property. -/
theorem C10_interpolates (d : ℕ) (x y : List Fr) (hx : d + 1 ≤ x.length) (hy : d + 1 ≤ y.length)
    (hne : DistinctUpTo d x) :
    ∃ res, lagrangeInterpolate d x y = .ok res ∧ res.length = d + 1 ∧
      (∀ k ≤ d, polyVal res (x.getD k 0) = y.getD k 0) ∧
      ∀ f : List Fr, f.length = d + 1 → (∀ k ≤ d, polyVal f (x.getD k 0) = y.getD k 0) → f = res := by
  obtain ⟨res, h1, h2, h3⟩ := lagrangeInterpolate_ok d x y hx hy hne
  refine ⟨res, h1, h2, fun k hk => by rw [polyVal_eq_eval]; exact h3 k hk, ?_⟩
  intro f hf hfe
  have h := lagrangeInterpolate_eq_of_eval d x y f hx hy hne hf hfe
  rw [h] at h1
  exact Except.ok.inj h1

/-- **C10.** The process is terminated exactly when two of the points coincide. -/
theorem C10_fatal_iff_duplicate (d : ℕ) (x y : List Fr) (hx : d + 1 ≤ x.length) (hy : d + 1 ≤ y.length) :
    lagrangeInterpolate d x y = .error .fatal ↔ ¬ DistinctUpTo d x := by
  constructor
  · intro h hne
    obtain ⟨res, h1, -⟩ := lagrangeInterpolate_ok d x y hx hy hne
    rw [h] at h1; cases h1
  · intro h
    apply lagrangeInterpolate_fatal d x y hx hy
    simp only [DistinctUpTo] at h
    push Not at h
    obtain ⟨i, hi, j, hj, hji, he⟩ := h
    exact ⟨i, hi, j, hj, hji, he⟩

theorem fr_natCast_ne {a b : ℕ} (ha : a < frModulus) (hb : b < frModulus) (h : a ≠ b) : (a : Fr) ≠ (b : Fr) := by
  intro he
  rw [ZMod.natCast_eq_natCast_iff', Nat.mod_eq_of_lt ha, Nat.mod_eq_of_lt hb] at he
  exact h he

/-- Three points on `1 + x²`. -/
example : lagrangeInterpolate 2 ([1, 2, 3] : List Fr) [2, 5, 10] = .ok [1, 0, 1] := by
  have h12 : (1 : Fr) ≠ 2 := by exact_mod_cast fr_natCast_ne (a := 1) (b := 2) (by decide +kernel) (by decide +kernel) (by norm_num)
  have h13 : (1 : Fr) ≠ 3 := by exact_mod_cast fr_natCast_ne (a := 1) (b := 3) (by decide +kernel) (by decide +kernel) (by norm_num)
  have h23 : (2 : Fr) ≠ 3 := by exact_mod_cast fr_natCast_ne (a := 2) (b := 3) (by decide +kernel) (by decide +kernel) (by norm_num)
  apply lagrangeInterpolate_eq_of_eval 2 _ _ _ (by simp) (by simp)
  · intro i hi j hj hji
    interval_cases i <;> interval_cases j <;> simp_all [Ne.symm]
  · rfl
  · intro k hk
    interval_cases k <;> simp [polyVal, Finset.sum_range_succ] <;> norm_num

/-- A repeated point: process exit. -/
example : lagrangeInterpolate 1 ([4, 4] : List Fr) [2, 5] = .error .fatal := by
  rw [C10_fatal_iff_duplicate 1 _ _ (by simp) (by simp)]
  intro h
  exact h 0 (by norm_num) 1 (by norm_num) (by norm_num) (by simp)

/-- **C11.** The returned coefficients evaluate every polynomial with at most `d+1` coefficients at the target, whatever the
target (a known index included). -/
theorem C11_lagrange_coefficients (d : ℕ) (x : List Fr) (t : Fr) (hx : x.length = d + 1) (hne : DistinctUpTo d x) :
    ∃ lam, getLagrangeCoefficients d x t = .ok lam ∧ lam.length = d + 1 ∧
      ∀ f : List Fr, f.length ≤ d + 1 →
        ∑ k ∈ Finset.range (d + 1), lam.getD k 0 * polyVal f (x.getD k 0) = polyVal f t := by
  refine ⟨_, by rw [getLagrangeCoefficients, if_neg (by simpa using hx)], by simp, ?_⟩
  intro f hf
  rw [polyVal_eq_eval f t, ← lagrangeCoeff_sum x t d (polyOf f)
    (lt_of_lt_of_le (degree_polyOf_lt f) (by exact_mod_cast hf)) hne]
  apply Finset.sum_congr rfl
  intro i hi
  rw [polyVal_eq_eval]
  congr 1
  have : i < d + 1 := by simpa using hi
  rw [List.getD_eq_getElem _ _ (by simpa using this)]
  simp

/-- **C11.** A wrong number of known indexes panics. -/
theorem C11_wrong_length (d : ℕ) (x : List Fr) (t : Fr) (hx : x.length ≠ d + 1) :
    getLagrangeCoefficients d x t = .error .panic := by
  rw [getLagrangeCoefficients, if_pos hx]

/-- The hypotheses of C11 are met by `x = [1, 2]`. -/
example : DistinctUpTo 1 ([1, 2] : List Fr) := by
  have h12 : (1 : Fr) ≠ 2 := by exact_mod_cast fr_natCast_ne (a := 1) (b := 2) (by decide +kernel) (by decide +kernel) (by norm_num)
  intro i hi j hj hji
  interval_cases i <;> interval_cases j <;> simp_all [Ne.symm]

/-- **C13.** Long division: `a = q·b + rem` with `deg rem < deg b`, quotient of the expected length. -/
theorem C13_polyLongDiv (a b : List Fr) (hb : b ≠ []) (hlead : b.getLast hb ≠ 0) (hlen : b.length ≤ a.length + 1) :
    ∃ q rem : List Fr, polyLongDiv a b = .ok q ∧ q.length + b.length = a.length + 1 ∧ rem.length < b.length ∧
      ∀ x, polyVal a x = polyVal q x * polyVal b x + polyVal rem x := by
  have hl : 0 < b.length := List.length_pos_of_ne_nil hb
  have hlead' : b.getD (b.length - 1) 0 ≠ 0 := by
    rw [List.getD_eq_getElem _ _ (by omega)]
    rwa [List.getLast_eq_getElem] at hlead
  obtain ⟨q, rem, h1, h2, h3, h4, h5⟩ := polyLongDiv_spec a b hb hlead' hlen
  refine ⟨q, (List.range (b.length - 1)).map (fun i => (polyOf rem).coeff i), h1, by omega, by simp; omega, ?_⟩
  intro x
  have hrem : polyOf ((List.range (b.length - 1)).map (fun i => (polyOf rem).coeff i)) = polyOf rem := by
    ext k
    rw [coeff_polyOf]
    by_cases hk : k < b.length - 1
    · rw [List.getD_eq_getElem _ _ (by simpa using hk)]; simp
    · rw [List.getD_eq_default _ _ (by simpa using hk)]
      exact (coeff_eq_zero_of_degree_lt (lt_of_lt_of_le h5 (by exact_mod_cast not_lt.1 hk))).symm
  rw [polyVal_eq_eval, polyVal_eq_eval, polyVal_eq_eval, polyVal_eq_eval, hrem, h4, eval_add, eval_mul]

/-- **C13.** If the divisor has no coefficient, or more than one coefficient more than the dividend, the call panics. -/
theorem C13_panics (a b : List Fr) (h : b = [] ∨ a.length + 1 < b.length) : polyLongDiv a b = .error .panic := by
  unfold polyLongDiv
  rcases h with h | h
  · simp [h]
  · split
    · rfl
    · simp [h]

theorem longDivLoop_zero (b : List Fr) (h : b.getD (b.length - 1) 0 = 0) : ∀ (n : ℕ) (out a : List Fr), (∀ i, out.getD i 0 = 0) → ∀ i, (longDivLoop b n out a).1.getD i 0 = 0
  | 0, out, _, ho, i => ho i
  | n + 1, out, a, ho, i => by
    rw [longDivLoop]
    apply longDivLoop_zero b h n
    intro j
    have hq : (at0 b (b.length - 1))⁻¹ = 0 := by rw [show at0 b (b.length - 1) = 0 from h, inv_zero]
    rw [hq, zero_mul, List.getD_eq_getElem?_getD, List.getElem?_set]
    split
    · split <;> rfl
    · rw [← List.getD_eq_getElem?_getD]
      exact ho j

/-- **C13.** The condition on the leading coefficient is needed: if it is zero, the call does not fail but returns zeros, whatever the dividend (the inverse of zero is computed as zero). -/
theorem C13_zero_lead (a b : List Fr) (hb : b ≠ []) (hlead : b.getLast hb = 0) (hlen : b.length ≤ a.length + 1) :
    ∃ q, polyLongDiv a b = .ok q ∧ ∀ x, polyVal q x = 0 := by
  have hl : 0 < b.length := List.length_pos_of_ne_nil hb
  have hlead' : b.getD (b.length - 1) 0 = 0 := by
    rw [List.getD_eq_getElem _ _ (by omega)]
    rwa [List.getLast_eq_getElem] at hlead
  refine ⟨(longDivLoop b (a.length + 1 - b.length) (List.replicate (a.length + 1 - b.length) 0) a).1, ?_, fun x => ?_⟩
  · rw [polyLongDiv, if_neg (by omega), if_neg (by omega)]
  · rw [polyVal]
    apply Finset.sum_eq_zero
    intro i _
    rw [longDivLoop_zero b hlead' _ _ _ (fun i => by simp [List.getD_eq_getElem?_getD, List.getElem?_replicate]; split <;> rfl), zero_mul]

/-- `x² + 2x + 1 = (x + 1)·(x + 1)`, instance of C13's hypotheses. -/
example : ∃ q rem : List Fr, polyLongDiv ([1, 2, 1] : List Fr) [1, 1] = .ok q ∧ q.length + 2 = 4 ∧ rem.length < 2 ∧
    ∀ x, polyVal [1, 2, 1] x = polyVal q x * polyVal [1, 1] x + polyVal rem x :=
  C13_polyLongDiv [1, 2, 1] [1, 1] (by simp) (by simp) (by simp)

/-- With a zero in front of the divisor's leading coefficient the quotient is lost. -/
example : polyLongDiv ([1, 2, 1] : List Fr) [1, 1] = .ok [1, 1] ∧ polyLongDiv ([1, 2, 1] : List Fr) [1, 1, 0] = .ok [0] := by decide +kernel

/-- Any three values at 1, 2, 3 determine the value at 9 of a polynomial with three coefficients; a divisor without coefficients panics. -/
example : ∃ lam : List Fr, getLagrangeCoefficients 1 [1, 2] 9 = .ok lam ∧ lam.length = 2 ∧ polyLongDiv ([1, 2, 1] : List Fr) [] = .error .panic ∧
    ∃ res : List Fr, lagrangeInterpolate 1 [1, 2] [5, 8] = .ok res ∧ ∀ f : List Fr, f.length = 2 → polyVal f 1 = 5 → polyVal f 2 = 8 → f = res := by
  have h12 : (1 : Fr) ≠ 2 := by exact_mod_cast fr_natCast_ne (a := 1) (b := 2) (by decide +kernel) (by decide +kernel) (by norm_num)
  have hd : DistinctUpTo 1 ([1, 2] : List Fr) := by
    intro i hi j hj hji
    interval_cases i <;> interval_cases j <;> simp_all [Ne.symm]
  obtain ⟨lam, h1, h2, -⟩ := C11_lagrange_coefficients 1 [1, 2] 9 rfl hd
  obtain ⟨res, k1, -, -, k4⟩ := C10_interpolates 1 [1, 2] [5, 8] (by simp) (by simp) hd
  refine ⟨lam, h1, h2, C13_panics _ _ (Or.inl rfl), res, k1, fun f hf e1 e2 => k4 f hf fun k hk => ?_⟩
  interval_cases k
  · exact e1
  · exact e2

end DyCAPS
