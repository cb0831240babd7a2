import Mathlib.Algebra.Polynomial.Div
import Mathlib.LinearAlgebra.Lagrange
import Verif.Lemmas.KZG
import Verif.Lemmas.ZeroPoly
import Verif.Model.FK20

/-! Lemmas about multi-point proofs. -/

namespace DyCAPS

open Finset Polynomial

section
variable {K G1 G2 GT : Type} [Field K] [DecidableEq K] [AddCommGroup G1] [Module K G1] [AddCommGroup G2] [Module K G2] [AddCommGroup GT] [Module K GT]

omit [DecidableEq K] in
theorem multiPow_eq (x : K) (n : ℕ) : multiPow x n = 0 := by
  unfold multiPow
  induction n with
  | zero => rfl
  | succ n ih => rw [List.range_succ, List.foldl_append, ih]; simp

omit [DecidableEq K] in
theorem multiDivisor_eq (x : K) (n : ℕ) : multiDivisor x n = List.replicate n 0 ++ [1] := by
  rw [multiDivisor, multiPow_eq, sub_zero, List.replicate_succ, List.set_cons_zero, ← List.replicate_succ, List.replicate_succ']
  rw [List.set_append_right (h := by simp)]
  simp

omit [DecidableEq K] in
theorem polyOf_multiDivisor (x : K) (n : ℕ) : polyOf (multiDivisor x n) = X ^ n := by
  ext j
  rw [multiDivisor_eq, coeff_polyOf, coeff_X_pow]
  simp only [List.getD, List.getElem?_append, List.length_replicate, List.getElem?_replicate]
  by_cases h : j < n
  · rw [if_pos h, if_pos h, if_neg (by omega)]; rfl
  · rw [if_neg h]
    by_cases h' : j = n
    · subst h'; simp
    · rw [if_neg h', List.getElem?_eq_none (by simp; omega)]; rfl

/-- The quotient by `X^n` are the coefficients from `n` on. -/
theorem multi_quotient (f : List K) (x : K) (n : ℕ) (h : n ≤ f.length) : polyLongDiv f (multiDivisor x n) = .ok (f.drop n) := by
  have hl : (multiDivisor x n).length = n + 1 := by rw [multiDivisor_eq]; simp
  have hne : multiDivisor x n ≠ [] := by rw [multiDivisor_eq]; simp
  obtain ⟨q, rem, h1, h2, h3, h4, h5⟩ := polyLongDiv_spec f (multiDivisor x n) hne (by simp [multiDivisor_eq]) (by omega)
  rw [h1]
  congr 1
  refine polyOf_inj (by rw [List.length_drop]; omega) ?_
  ext j
  have hj := congrArg (fun P : K[X] => P.coeff (j + n)) h4
  simp only [coeff_add, polyOf_multiDivisor, coeff_mul_X_pow] at hj
  rw [coeff_polyOf f, coeff_eq_zero_of_degree_lt (lt_of_lt_of_le h5 (by rw [hl]; exact_mod_cast (by omega : n ≤ j + n))), add_zero] at hj
  rw [← hj, coeff_polyOf]
  simp [List.getD, List.getElem?_drop, add_comm]

theorem computeProofMulti_ok (pp : Pairing K G1 G2 GT) (t : K) (m : ℕ) (f : List K) (x n : ℕ) (h : n ≤ f.length) (hm : f.length ≤ m + n) :
    computeProofMulti (newKZG pp t m) f x n = .ok (polyVal (f.drop n) t • pp.g1) := by
  unfold computeProofMulti
  rw [multi_quotient f _ n h, Go.ok_bind, if_pos (by rw [newKZG_eq]; simp; omega), linComb_setup pp t m _ (by rw [List.length_drop]; omega)]

theorem computeProofMulti_short (ks : KZGSettings G1 G2) (f : List K) (x n : ℕ) (h : f.length < n) : computeProofMulti ks f x n = .error .panic := by
  have hl : (multiDivisor (x : K) n).length = n + 1 := by rw [multiDivisor_eq]; simp
  unfold computeProofMulti polyLongDiv
  rw [if_neg (by omega), if_pos (by omega)]
  rfl

omit [DecidableEq K] in
theorem unscale_snd (x : K) : ∀ (c : List K) (a : K), (unscaleCoset x a c).2 = a * x ^ c.length
  | [], a => by simp [unscaleCoset]
  | _ :: cs, a => by
    rw [unscaleCoset]
    simp only [unscale_snd x cs, List.length_cons, pow_succ]
    ring

omit [DecidableEq K] in
theorem unscale_length (x : K) : ∀ (c : List K) (a : K), (unscaleCoset x a c).1.length = c.length
  | [], a => by simp [unscaleCoset]
  | _ :: cs, a => by
    rw [unscaleCoset]
    simp only [List.length_cons, unscale_length x cs]

omit [DecidableEq K] in
theorem unscale_getD (x : K) : ∀ (c : List K) (a : K) (j : ℕ), (unscaleCoset x a c).1.getD j 0 = c.getD j 0 * (a * x ^ j)⁻¹
  | [], a, j => by simp [unscaleCoset]
  | _ :: cs, a, 0 => by simp [unscaleCoset]
  | _ :: cs, a, j + 1 => by
    rw [unscaleCoset]
    simp only [List.getD_cons_succ, unscale_getD x cs, pow_succ]
    congr 2
    ring

/-- What `CheckProofMulti` decides, for any `x`: `P` is the polynomial of degree below `n` with the claimed values at the powers of the root. -/
theorem checkProofMulti_eq [DecidableEq GT] [DecidableEq G1] {fs : FFTSettings K} {s : ℕ} {w : K} (hfs : fs.Ok s w) {k : ℕ} (hk : k ≤ s) (pp : Pairing K G1 G2 GT) (t : K) (m : ℕ)
    (hm : 2 ^ k < m) (C W : G1) (x : K) (ys : List K) (hys : ys.length = 2 ^ k) :
    ∃ P : K[X], P.degree < (2 ^ k : ℕ) ∧ (∀ i < 2 ^ k, P.eval ((w ^ 2 ^ (s - k)) ^ i) = ys.getD i 0) ∧
      checkProofMulti pp fs (newKZG pp t m) C W x ys =
        .ok (decide (C - polyVal (unscaleCoset x 1 ((List.range (2 ^ k)).map P.coeff)).1 t • pp.g1 = (t ^ 2 ^ k - x ^ 2 ^ k) • W)) := by
  set ω := w ^ 2 ^ (s - k) with hω
  have hprim : IsPrimitiveRoot ω (2 ^ k) := hfs.sub_root hk
  have hinj : Set.InjOn (fun i => ω ^ i) (Finset.range (2 ^ k) : Set ℕ) := by
    intro a ha b hb e
    exact hprim.pow_inj (Finset.mem_range.1 (Finset.mem_coe.1 ha)) (Finset.mem_range.1 (Finset.mem_coe.1 hb)) e
  set P := Lagrange.interpolate (Finset.range (2 ^ k)) (fun i => ω ^ i) (fun i => ys.getD i 0) with hP
  have hPd : P.degree < (2 ^ k : ℕ) := by
    have := Lagrange.degree_interpolate_lt (s := Finset.range (2 ^ k)) (fun i => ys.getD i 0) hinj
    rwa [Finset.card_range] at this
  have hPv : ∀ i < 2 ^ k, P.eval (ω ^ i) = ys.getD i 0 := fun i hi => Lagrange.eval_interpolate_at_node (fun i => ys.getD i 0) hinj (Finset.mem_range.2 hi)
  set c := (List.range (2 ^ k)).map P.coeff with hc
  have hcl : c.length = 2 ^ k := by simp [hc]
  have hfft : fft fs ys true = .ok (some c) := by
    rw [fft_pow hfs hk ys hys, inplace_coeff hfs hk P hPd ys hys fun j hj => (hPv j hj).symm]
  have hJl : (unscaleCoset x 1 c).1.length = 2 ^ k := by rw [unscale_length, hcl]
  refine ⟨P, hPd, hPv, ?_⟩
  unfold checkProofMulti
  rw [hfft]
  have hi : idx (newKZG pp t m).secretG2 ys.length = .ok (t ^ 2 ^ k • pp.g2) := by
    rw [newKZG_eq, idx_of_lt (by simp; omega)]; simp [hys]
  simp only [orPanic, Go.ok_bind, Go.pure_eq, hi, unscale_snd, hcl, one_mul]
  rw [if_pos (by rw [hJl, newKZG_eq]; simp; omega), linComb_setup pp t m _ (by omega), Go.ok_bind]
  congr 1
  unfold pairingsVerify
  congr 1
  apply propext
  rw [← sub_smul, map_smul, map_neg, LinearMap.neg_apply]
  constructor
  · intro h
    have : pp.e (-(C - polyVal (unscaleCoset x 1 c).1 t • pp.g1) + (t ^ 2 ^ k - x ^ 2 ^ k) • W) pp.g2 = 0 := by
      rw [map_add, map_neg, map_smul]; simpa using h
    have h2 := pairing_inj pp _ this
    rw [neg_add_eq_zero] at h2
    exact h2
  · intro h
    rw [h, map_smul]; simp

/-- What `CheckProofMulti` decides: `J` is the polynomial of degree below `n` with the claimed values on the coset. -/
theorem checkProofMulti_ok [DecidableEq GT] [DecidableEq G1] {fs : FFTSettings K} {s : ℕ} {w : K} (hfs : fs.Ok s w) {k : ℕ} (hk : k ≤ s) (pp : Pairing K G1 G2 GT) (t : K) (m : ℕ)
    (hm : 2 ^ k < m) (C W : G1) (x : K) (hx : x ≠ 0) (ys : List K) (hys : ys.length = 2 ^ k) :
    ∃ J : K[X], J.degree < (2 ^ k : ℕ) ∧ (∀ i < 2 ^ k, J.eval (x * (w ^ 2 ^ (s - k)) ^ i) = ys.getD i 0) ∧
      checkProofMulti pp fs (newKZG pp t m) C W x ys = .ok (decide (C - J.eval t • pp.g1 = (t ^ 2 ^ k - x ^ 2 ^ k) • W)) := by
  obtain ⟨P, hPd, hPv, h⟩ := checkProofMulti_eq hfs hk pp t m hm C W x ys hys
  have hJl : (unscaleCoset x 1 ((List.range (2 ^ k)).map P.coeff)).1.length = 2 ^ k := by rw [unscale_length]; simp
  refine ⟨polyOf (unscaleCoset x 1 ((List.range (2 ^ k)).map P.coeff)).1, by have := degree_polyOf_lt (unscaleCoset x 1 ((List.range (2 ^ k)).map P.coeff)).1; rwa [hJl] at this, fun i hi => ?_, by rw [eval_polyOf]; exact h⟩
  rw [← hPv i hi, eval_polyOf, polyVal, hJl, ← dft_coeff _ P hPd, dft]
  refine Finset.sum_congr rfl fun j hj => ?_
  rw [unscale_getD, getD_map_range _ _ _ _ (Finset.mem_range.1 hj), one_mul, mul_pow, smul_eq_mul, pow_mul]
  field_simp

omit [DecidableEq K] in
theorem list_sum_getD (l : List K) : l.sum = ∑ i ∈ Finset.range l.length, l.getD i 0 := by
  induction l with
  | nil => simp
  | cons a l ih => rw [List.sum_cons, List.length_cons, Finset.sum_range_succ', ih]; simp [add_comm]

/-- What `CheckProofMulti` decides for `x = 0`: only the mean of the claimed values matters. -/
theorem checkProofMulti_zero [DecidableEq GT] [DecidableEq G1] {fs : FFTSettings K} {s : ℕ} {w : K} (hfs : fs.Ok s w) {k : ℕ} (hk : k ≤ s) (pp : Pairing K G1 G2 GT) (t : K) (m : ℕ)
    (hm : 2 ^ k < m) (C W : G1) (ys : List K) (hys : ys.length = 2 ^ k) :
    ∃ c : K, ((2 ^ k : ℕ) : K) * c = ys.sum ∧ checkProofMulti pp fs (newKZG pp t m) C W 0 ys = .ok (decide (C - c • pp.g1 = t ^ 2 ^ k • W)) := by
  obtain ⟨P, hPd, hPv, h⟩ := checkProofMulti_eq hfs hk pp t m hm C W 0 ys hys
  refine ⟨P.coeff 0, ?_, ?_⟩
  · have h1 := dft_inv (hfs.sub_root hk) (by positivity) P.coeff 0 (by positivity)
    rw [smul_eq_mul] at h1
    rw [← h1, dft, list_sum_getD ys, hys]
    refine Finset.sum_congr rfl fun i hi => ?_
    rw [Nat.zero_mul, pow_zero, one_smul, dft_coeff _ P hPd, hPv i (Finset.mem_range.1 hi)]
  · rw [h, zero_pow (by positivity), sub_zero]
    congr 4
    have hl : (unscaleCoset (0 : K) 1 ((List.range (2 ^ k)).map P.coeff)).1.length = 2 ^ k := by rw [unscale_length]; simp
    rw [polyVal, hl, Finset.sum_eq_single 0]
    · rw [unscale_getD, getD_map_range _ _ _ _ (by positivity)]; simp
    · intro j _ hj
      rw [unscale_getD, zero_pow hj]; simp
    · intro hh; exact absurd (Finset.mem_range.2 (by positivity)) hh

omit [DecidableEq K] in
theorem coset_monic (a : K) {n : ℕ} (hn : n ≠ 0) : (X ^ n - C a : K[X]).Monic := monic_X_pow_sub_C a hn

omit [DecidableEq K] in
/-- A polynomial of degree below `n` with the values of `f` on the coset is the remainder of `f`. -/
theorem coset_remainder {ω x : K} {n : ℕ} (hω : IsPrimitiveRoot ω n) (hn : n ≠ 0) (hx : x ≠ 0) (f J : K[X]) (hJ : J.degree < n) (h : ∀ i < n, J.eval (x * ω ^ i) = f.eval (x * ω ^ i)) :
    J = f %ₘ (X ^ n - C (x ^ n)) := by
  have hmon := coset_monic (x ^ n) hn
  have hinj : Set.InjOn (fun i => x * ω ^ i) (Finset.range n : Set ℕ) := by
    intro a ha b hb e
    exact hω.pow_inj (Finset.mem_range.1 (Finset.mem_coe.1 ha)) (Finset.mem_range.1 (Finset.mem_coe.1 hb)) (mul_left_cancel₀ hx e)
  refine eq_of_degrees_lt_of_eval_index_eq (Finset.range n) hinj (by rwa [Finset.card_range]) ?_ ?_
  · rw [Finset.card_range]
    have := degree_modByMonic_lt f hmon
    rwa [degree_X_pow_sub_C (Nat.pos_of_ne_zero hn)] at this
  · intro i hi
    rw [h i (Finset.mem_range.1 hi)]
    have := congrArg (eval (x * ω ^ i)) (modByMonic_add_div f (X ^ n - C (x ^ n)))
    rw [← this]
    simp only [eval_add, eval_mul, eval_sub, eval_pow, eval_X, eval_C]
    rw [mul_pow, ← pow_mul, mul_comm i, pow_mul, hω.pow_eq_one, one_pow, mul_one, sub_self, zero_mul, add_zero]

end

end DyCAPS
