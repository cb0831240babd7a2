import Verif.Lemmas.FK20
import Verif.Props.KZG
import Verif.Props.Recover

/-!
# Proofs for several points (C49, C68)

The coset of `x` has the points `x·ω^i`, `i < n`, where `ω = scale2Root p` has order `n = 2^p`. `t` is the secret of the setup, `m` its size.
-/

set_option linter.unusedSectionVars false

namespace DyCAPS

open Polynomial

variable {G1 G2 GT : Type} [AddCommGroup G1] [Module Fr G1] [AddCommGroup G2] [Module Fr G2] [AddCommGroup GT] [Module Fr GT] [DecidableEq GT]

/-- The verifier on the values of `f` and the proof `q·g1`. -/
theorem check_values {s : ℕ} {fs : FFTSettings Fr} {w : Fr} (ok : fs.Ok s w) {p : ℕ} (hp : p ≤ s) (pp : Pairing Fr G1 G2 GT) (t : Fr) (m : ℕ) (hm : 2 ^ p < m) (f : List Fr) (x q : Fr) (hx : x ≠ 0) :
    checkProofMulti pp fs (newKZG pp t m) (polyVal f t • pp.g1) (q • pp.g1) x ((List.range (2 ^ p)).map fun i => polyVal f (x * (w ^ 2 ^ (s - p)) ^ i)) =
      .ok (decide (t ^ 2 ^ p = x ^ 2 ^ p ∨ (polyOf f /ₘ (X ^ 2 ^ p - C (x ^ 2 ^ p))).eval t = q)) := by
  classical
  have hprim := ok.sub_root hp
  obtain ⟨J, h1, h2, h3⟩ := checkProofMulti_ok ok hp pp t m hm (polyVal f t • pp.g1) (q • pp.g1) x hx ((List.range (2 ^ p)).map fun i => polyVal f (x * (w ^ 2 ^ (s - p)) ^ i)) (by simp)
  rw [h3]
  have hJ := coset_remainder hprim (by positivity) hx (polyOf f) J h1 fun i hi => by
    rw [h2 i hi, getD_map_range _ _ _ _ hi, eval_polyOf]
  have hdiv := congrArg (eval t) (modByMonic_add_div (polyOf f) (X ^ 2 ^ p - C (x ^ 2 ^ p)))
  rw [← hJ, eval_polyOf] at hdiv
  simp only [eval_add, eval_mul, eval_sub, eval_pow, eval_X, eval_C] at hdiv
  congr 1
  rw [decide_eq_decide, ← sub_smul, smul_smul]
  constructor
  · intro h
    have h4 := smul_g1_inj pp h
    by_cases ht : t ^ 2 ^ p = x ^ 2 ^ p
    · exact Or.inl ht
    · refine Or.inr (mul_left_cancel₀ (sub_ne_zero.2 ht) ?_)
      linear_combination h4 + hdiv
  · rintro (h | h)
    · congr 1
      rw [h, sub_self, zero_mul] at hdiv ⊢
      linear_combination -hdiv
    · congr 1
      rw [← h]
      linear_combination -hdiv

theorem uint64_ne_zero {x : ℕ} (h0 : 0 < x) (hx : x < 2 ^ 64) : (x : Fr) ≠ 0 := by
  have h1 : (2 : ℕ) ^ 64 < frModulus := by decide +kernel
  have : ((x : ℕ) : ZMod frModulus) ≠ 0 := by
    rw [Ne, ZMod.natCast_eq_zero_iff]
    exact Nat.not_dvd_of_pos_of_lt h0 (lt_trans hx h1)
  exact this

/-! ## C49 -/

/-- Exactly when the honest proof for the values on a coset is accepted: the code divides by `X^n` instead of `X^n - x^n`, and the proof is accepted only if both quotients have the same value at the secret. -/
theorem C49_exact {s : ℕ} {fs : FFTSettings Fr} (h : newFFTSettings s = some fs) {p : ℕ} (hp : p ≤ s) {ω : Fr} (hω : scale2Root p = some ω) (pp : Pairing Fr G1 G2 GT) (t : Fr) (m : ℕ) (hm : 2 ^ p < m)
    (f : List Fr) (hn : 2 ^ p ≤ f.length) (hf : f.length ≤ m) (x : ℕ) (h0 : 0 < x) (hx : x < 2 ^ 64) :
    ∃ C' W, commitToPoly (newKZG pp t m) f = .ok C' ∧ computeProofMulti (newKZG pp t m) f x (2 ^ p) = .ok W ∧
      checkProofMulti pp fs (newKZG pp t m) C' W x ((List.range (2 ^ p)).map fun i => polyVal f (x * ω ^ i)) =
        .ok (decide (t ^ 2 ^ p = (x : Fr) ^ 2 ^ p ∨ (polyOf f /ₘ (X ^ 2 ^ p - C ((x : Fr) ^ 2 ^ p))).eval t = polyVal (f.drop (2 ^ p)) t)) := by
  obtain ⟨hs, w, hw, ok⟩ := newFFTSettings_some h
  rw [scale2Root_sub hw hp] at hω
  cases hω
  exact ⟨_, _, commitToPoly_ok pp t m f hf, computeProofMulti_ok pp t m f x (2 ^ p) hn (hf.trans (Nat.le_add_right _ _)), check_values ok hp pp t m hm f x _ (uint64_ne_zero h0 hx)⟩

/-- Part of C49: polynomials with at least `n` and at most `2n` coefficients. -/
theorem C49_partial {s : ℕ} {fs : FFTSettings Fr} (h : newFFTSettings s = some fs) {p : ℕ} (hp : p ≤ s) {ω : Fr} (hω : scale2Root p = some ω) (pp : Pairing Fr G1 G2 GT) (t : Fr) (m : ℕ) (hm : 2 ^ p < m)
    (f : List Fr) (hn : 2 ^ p ≤ f.length) (hn2 : f.length ≤ 2 * 2 ^ p) (hf : f.length ≤ m) (x : ℕ) (h0 : 0 < x) (hx : x < 2 ^ 64) :
    ∃ C' W, commitToPoly (newKZG pp t m) f = .ok C' ∧ computeProofMulti (newKZG pp t m) f x (2 ^ p) = .ok W ∧
      checkProofMulti pp fs (newKZG pp t m) C' W x ((List.range (2 ^ p)).map fun i => polyVal f (x * ω ^ i)) = .ok true := by
  obtain ⟨C', W, h1, h2, h3⟩ := C49_exact h hp hω pp t m hm f hn hf x h0 hx
  refine ⟨C', W, h1, h2, ?_⟩
  rw [h3, decide_eq_true]
  right
  rw [← quot_eval f _ t (by positivity) hn2, Finset.sum_range_succ, Finset.sum_range_one, pow_zero, one_mul, zero_add, one_mul]
  rw [List.drop_eq_nil_of_le (as := f) (i := (1 + 1) * 2 ^ p) (by omega)]
  simp [polyVal]

/-- **C49, refuted.** With one coefficient more the honest proof fails, for every coset and every secret outside `t^n = x^n`: the polynomial `X^(2n)`. -/
theorem C49_rejected {s : ℕ} {fs : FFTSettings Fr} (h : newFFTSettings s = some fs) {p : ℕ} (hp : p ≤ s) {ω : Fr} (hω : scale2Root p = some ω) (pp : Pairing Fr G1 G2 GT) (t : Fr) (m : ℕ) (hm : 2 * 2 ^ p < m)
    (x : ℕ) (h0 : 0 < x) (hx : x < 2 ^ 64) (ht : t ^ 2 ^ p ≠ (x : Fr) ^ 2 ^ p) :
    ∃ f C' W, f.length = 2 * 2 ^ p + 1 ∧ commitToPoly (newKZG pp t m) f = .ok C' ∧ computeProofMulti (newKZG pp t m) f x (2 ^ p) = .ok W ∧
      checkProofMulti pp fs (newKZG pp t m) C' W x ((List.range (2 ^ p)).map fun i => polyVal f (x * ω ^ i)) = .ok false := by
  have hpos : 0 < 2 ^ p := by positivity
  set f : List Fr := List.replicate (2 * 2 ^ p) 0 ++ [1] with hf
  have hl : f.length = 2 * 2 ^ p + 1 := by simp [hf]
  obtain ⟨C', W, h1, h2, h3⟩ := C49_exact h hp hω pp t m (by omega) f (by omega) (by omega) x h0 hx
  refine ⟨f, C', W, hl, h1, h2, ?_⟩
  rw [h3, decide_eq_false]
  rintro (h4 | h4)
  · exact ht h4
  · rw [← quot_eval f _ t (k := 3) (by positivity) (by omega), Finset.sum_range_succ, Finset.sum_range_succ, Finset.sum_range_one, pow_zero, one_mul, zero_add, one_mul, pow_one] at h4
    rw [List.drop_eq_nil_of_le (as := f) (i := (2 + 1) * 2 ^ p) (by omega)] at h4
    have hd : f.drop ((1 + 1) * 2 ^ p) = [1] := by
      rw [hf, List.drop_append_of_le_length (by simp), List.drop_replicate, show 2 * 2 ^ p - (1 + 1) * 2 ^ p = 0 by omega]
      rfl
    rw [hd] at h4
    have h5 : ((x : Fr) ^ 2 ^ p) = 0 := by simpa [polyVal] using h4
    exact pow_ne_zero _ (uint64_ne_zero h0 hx) h5

/-- Polynomials with fewer than `n` coefficients: the prover panics. -/
theorem C49_short_panics (ks : KZGSettings G1 G2) (f : List Fr) (x n : ℕ) (h : f.length < n) : computeProofMulti ks f x n = .error .panic :=
  computeProofMulti_short ks f x n h

/-- The settings of width 8, `1 + 2X + 3X² + 4X³` on the two points `±5`, secret 77: accepted. -/
example : ∃ fs, newFFTSettings 3 = some fs ∧ ∃ C' W, commitToPoly (newKZG (Pairing.dlog Fr) (77 : Fr) 8) ([1, 2, 3, 4] : List Fr) = .ok C' ∧
    computeProofMulti (newKZG (Pairing.dlog Fr) (77 : Fr) 8) ([1, 2, 3, 4] : List Fr) 5 2 = .ok W ∧
    ∃ ys, checkProofMulti (Pairing.dlog Fr) fs (newKZG (Pairing.dlog Fr) (77 : Fr) 8) C' W 5 ys = .ok true := by
  obtain ⟨fs, w, h1, h2, ok⟩ := newFFTSettings_ok (s := 3) (by norm_num)
  have hw := scale2Root_sub h2 (k := 1) (by norm_num)
  obtain ⟨C', W, h3, h4, h5⟩ := C49_partial h1 (p := 1) (by norm_num) hw (Pairing.dlog Fr) 77 8 (by norm_num) [1, 2, 3, 4] (by simp) (by simp) (by simp) 5 (by norm_num) (by norm_num)
  exact ⟨fs, h1, C', W, h3, h4, _, h5⟩

/-! ## C68 -/

/-- Algebraic prover: commitment and proof are known combinations `f`, `v` of the setup powers. If the values `ys` on a coset are accepted, they are the values of `f`, or the prover holds an explicit non-zero polynomial with the secret as a root. -/
theorem C68_binding {s : ℕ} {fs : FFTSettings Fr} (h : newFFTSettings s = some fs) {p : ℕ} (hp : p ≤ s) {ω : Fr} (hω : scale2Root p = some ω) (pp : Pairing Fr G1 G2 GT) (t : Fr) (m : ℕ) (hm : 2 ^ p < m)
    (f v : Fr[X]) (x : Fr) (hx : x ≠ 0) (ys : List Fr) (hys : ys.length = 2 ^ p)
    (hc : checkProofMulti pp fs (newKZG pp t m) (f.eval t • pp.g1) (v.eval t • pp.g1) x ys = .ok true) :
    (∀ i < 2 ^ p, f.eval (x * ω ^ i) = ys.getD i 0) ∨
      ∃ J : Fr[X], J.degree < (2 ^ p : ℕ) ∧ (∀ i < 2 ^ p, J.eval (x * ω ^ i) = ys.getD i 0) ∧ f - J - v * (X ^ 2 ^ p - C (x ^ 2 ^ p)) ≠ 0 ∧ (f - J - v * (X ^ 2 ^ p - C (x ^ 2 ^ p))).eval t = 0 := by
  classical
  obtain ⟨hs, w, hw, ok⟩ := newFFTSettings_some h
  rw [scale2Root_sub hw hp] at hω
  cases hω
  have hprim := ok.sub_root hp
  obtain ⟨J, h1, h2, h3⟩ := checkProofMulti_ok ok hp pp t m hm (f.eval t • pp.g1) (v.eval t • pp.g1) x hx ys hys
  rw [h3] at hc
  have h4 := of_decide_eq_true (Except.ok.inj hc)
  rw [← sub_smul, smul_smul] at h4
  have h5 := smul_g1_inj pp h4
  by_cases hz : f - J - v * (X ^ 2 ^ p - C (x ^ 2 ^ p)) = 0
  · left
    intro i hi
    have := congrArg (eval (x * (w ^ 2 ^ (s - p)) ^ i)) hz
    simp only [eval_sub, eval_mul, eval_pow, eval_X, eval_C, eval_zero] at this
    have e : (x * (w ^ 2 ^ (s - p)) ^ i) ^ 2 ^ p = x ^ 2 ^ p := by
      generalize w ^ 2 ^ (s - p) = ρ at hprim ⊢
      rw [mul_pow, ← pow_mul, mul_comm i, pow_mul, hprim.pow_eq_one, one_pow, mul_one]
    rw [e, sub_self, mul_zero, sub_zero] at this
    rw [← h2 i hi]
    exact sub_eq_zero.1 this
  · right
    refine ⟨J, h1, h2, hz, ?_⟩
    simp only [eval_sub, eval_mul, eval_pow, eval_X, eval_C]
    linear_combination h5

/-- **C68, boundary.** `x ≠ 0` is needed: 0 belongs to no coset, but the verifier takes it and then looks only at the mean of the claimed values. Whatever the values are, they are accepted for the commitment
to the constant polynomial with their mean as value, with the neutral element as proof. -/
theorem C68_zero_point {s : ℕ} {fs : FFTSettings Fr} (h : newFFTSettings s = some fs) {p : ℕ} (hp : p ≤ s) (pp : Pairing Fr G1 G2 GT) (t : Fr) (m : ℕ) (hm : 2 ^ p < m)
    (ys : List Fr) (hys : ys.length = 2 ^ p) :
    ∃ c : Fr, ((2 ^ p : ℕ) : Fr) * c = ys.sum ∧ commitToPoly (newKZG pp t m) [c] = .ok (c • pp.g1) ∧
      checkProofMulti pp fs (newKZG pp t m) (c • pp.g1) 0 0 ys = .ok true := by
  classical
  obtain ⟨hs, w, hw, ok⟩ := newFFTSettings_some h
  obtain ⟨c, h1, h2⟩ := checkProofMulti_zero ok hp pp t m hm ((ys.sum * ((2 ^ p : ℕ) : Fr)⁻¹) • pp.g1) 0 ys hys
  have hne : ((2 ^ p : ℕ) : Fr) ≠ 0 := by
    have h2 : (2 : Fr) ≠ 0 := by
      have := fr_natCast_ne (a := 2) (b := 0) (by decide +kernel) (by decide +kernel) (by norm_num)
      exact_mod_cast this
    rw [Nat.cast_pow]
    exact pow_ne_zero _ (by exact_mod_cast h2)
  have hc : ys.sum * ((2 ^ p : ℕ) : Fr)⁻¹ = c := by rw [← h1]; field_simp
  rw [hc] at h2
  refine ⟨c, h1, ?_, by rw [h2]; simp⟩
  rw [commitToPoly_ok pp t m [c] (by simp; omega)]
  simp [polyVal]

/-- The values 1 and 3 are accepted "on the coset of 0" for the constant polynomial 2. -/
example : ∃ fs, newFFTSettings 2 = some fs ∧ commitToPoly (newKZG (Pairing.dlog Fr) (77 : Fr) 8) [(2 : Fr)] = .ok (2 : Fr) ∧
    checkProofMulti (Pairing.dlog Fr) fs (newKZG (Pairing.dlog Fr) 77 8) 2 0 0 [1, 3] = .ok true := by
  obtain ⟨fs, w, h1, h2, ok⟩ := newFFTSettings_ok (s := 2) (by norm_num)
  obtain ⟨c, h3, h4, h5⟩ := C68_zero_point h1 (p := 1) (by norm_num) (Pairing.dlog Fr) 77 8 (by norm_num) [1, 3] rfl
  have hc : c = 2 := by
    have : (2 : Fr) ≠ 0 := by
      have := fr_natCast_ne (a := 2) (b := 0) (by decide +kernel) (by decide +kernel) (by norm_num)
      exact_mod_cast this
    apply mul_left_cancel₀ this
    push_cast at h3
    rw [show (2 : Fr) * c = _ from by simpa using h3]
    norm_num
  subst hc
  have e : (2 : Fr) • (Pairing.dlog Fr).g1 = 2 := by simp [Pairing.dlog]
  rw [e] at h4 h5
  exact ⟨fs, h1, h4, h5⟩

/-- For fixed `f`, `v`, `x` and wrong values `ys`, few secrets of the setup make the verifier accept. -/
theorem C68_few_bad_secrets {s : ℕ} {fs : FFTSettings Fr} (h : newFFTSettings s = some fs) {p : ℕ} (hp : p ≤ s) {ω : Fr} (hω : scale2Root p = some ω) (pp : Pairing Fr G1 G2 GT) (m : ℕ) (hm : 2 ^ p < m)
    (f v : Fr[X]) (x : Fr) (hx : x ≠ 0) (ys : List Fr) (hys : ys.length = 2 ^ p) (hne : ∃ i < 2 ^ p, f.eval (x * ω ^ i) ≠ ys.getD i 0) :
    ∃ S : Finset Fr, S.card ≤ max f.natDegree (v.natDegree + 2 ^ p) ∧
      ∀ t, checkProofMulti pp fs (newKZG pp t m) (f.eval t • pp.g1) (v.eval t • pp.g1) x ys = .ok true → t ∈ S := by
  classical
  obtain ⟨hs, w, hw, ok⟩ := newFFTSettings_some h
  have hω' := hω
  rw [scale2Root_sub hw hp] at hω'
  have hprim : IsPrimitiveRoot ω (2 ^ p) := by cases hω'; exact ok.sub_root hp
  by_cases hex : ∃ t, checkProofMulti pp fs (newKZG pp t m) (f.eval t • pp.g1) (v.eval t • pp.g1) x ys = .ok true
  swap
  · exact ⟨∅, by simp, fun t ht => absurd ⟨t, ht⟩ hex⟩
  obtain ⟨t0, ht0⟩ := hex
  have hnot : ¬ ∀ i < 2 ^ p, f.eval (x * ω ^ i) = ys.getD i 0 := by
    obtain ⟨i, hi, hi'⟩ := hne
    exact fun hall => hi' (hall i hi)
  obtain ⟨J, j1, j2, j3, -⟩ := (C68_binding h hp hω pp t0 m hm f v x hx ys hys ht0).resolve_left hnot
  refine ⟨(f - J - v * (X ^ 2 ^ p - C (x ^ 2 ^ p))).roots.toFinset, ?_, ?_⟩
  · refine (Multiset.toFinset_card_le _).trans ((card_roots' _).trans ?_)
    have hJn : J.natDegree ≤ v.natDegree + 2 ^ p := by
      by_cases hJ0 : J = 0
      · rw [hJ0]; simp
      · have := (natDegree_lt_iff_degree_lt hJ0).2 j1
        omega
    have hv : (v * (X ^ 2 ^ p - C (x ^ 2 ^ p))).natDegree ≤ v.natDegree + 2 ^ p := by
      refine natDegree_mul_le.trans ?_
      rw [natDegree_X_pow_sub_C]
    refine (natDegree_sub_le _ _).trans (max_le ((natDegree_sub_le _ _).trans (max_le (le_max_left _ _) (hJn.trans (le_max_right _ _)))) (hv.trans (le_max_right _ _)))
  · intro t ht
    obtain ⟨J', k1, k2, k3, k4⟩ := (C68_binding h hp hω pp t m hm f v x hx ys hys ht).resolve_left hnot
    have hinj : Set.InjOn (fun i => x * ω ^ i) (Finset.range (2 ^ p) : Set ℕ) := by
      intro a ha b hb e
      exact hprim.pow_inj (Finset.mem_range.1 (Finset.mem_coe.1 ha)) (Finset.mem_range.1 (Finset.mem_coe.1 hb)) (mul_left_cancel₀ hx e)
    have hJ : J' = J := by
      refine eq_of_degrees_lt_of_eval_index_eq (Finset.range (2 ^ p)) hinj (by rwa [Finset.card_range]) (by rwa [Finset.card_range]) ?_
      intro i hi
      rw [j2 i (Finset.mem_range.1 hi), k2 i (Finset.mem_range.1 hi)]
    rw [hJ] at k4
    rw [Multiset.mem_toFinset, mem_roots j3]
    exact k4

/-- The values 1, 2 on `±5` for a commitment to `7 + X` and any proof `v`: at most two secrets are accepted when `v` is constant. -/
example : ∃ fs, newFFTSettings 3 = some fs ∧ ∃ S : Finset Fr, S.card ≤ 2 ∧
    ∀ t, checkProofMulti (Pairing.dlog Fr) fs (newKZG (Pairing.dlog Fr) t 8) ((C 7 + X : Fr[X]).eval t • (Pairing.dlog Fr).g1) ((C 9 : Fr[X]).eval t • (Pairing.dlog Fr).g1) 5 [1, 2] = .ok true → t ∈ S := by
  obtain ⟨fs, w, h1, h2, ok⟩ := newFFTSettings_ok (s := 3) (by norm_num)
  have hw := scale2Root_sub h2 (k := 1) (by norm_num)
  have h8 : (12 : Fr) ≠ 1 := by
    intro hh
    have : ((11 : ℕ) : ZMod frModulus) = 0 := by
      push_cast; linear_combination hh
    rw [ZMod.natCast_eq_zero_iff] at this
    exact absurd this (Nat.not_dvd_of_pos_of_lt (by norm_num) (by decide +kernel))
  obtain ⟨S, h3, h4⟩ := C68_few_bad_secrets h1 (p := 1) (by norm_num) hw (Pairing.dlog Fr) 8 (by norm_num) (C 7 + X) (C 9) 5 five_ne_zero [1, 2] (by simp)
    ⟨0, by norm_num, by
      simp only [pow_zero, mul_one, eval_add, eval_C, eval_X, List.getD_cons_zero]
      norm_num
      exact h8⟩
  refine ⟨fs, h1, S, h3.trans ?_, h4⟩
  rw [natDegree_C, add_comm, natDegree_X_add_C]
  norm_num

/-- Secret 77, coset `±5`: the honest proof for a polynomial with five coefficients is rejected. -/
example : ∃ fs, newFFTSettings 3 = some fs ∧
    (∃ (f : List Fr) (C' W : Fr) (ys : List Fr), f.length = 5 ∧ commitToPoly (newKZG (Pairing.dlog Fr) (77 : Fr) 8) f = .ok C' ∧ computeProofMulti (newKZG (Pairing.dlog Fr) (77 : Fr) 8) f 5 2 = .ok W ∧
      checkProofMulti (Pairing.dlog Fr) fs (newKZG (Pairing.dlog Fr) (77 : Fr) 8) C' W 5 ys = .ok false) := by
  obtain ⟨fs, w, h1, h2, ok⟩ := newFFTSettings_ok (s := 3) (by norm_num)
  have hw := scale2Root_sub h2 (k := 1) (by norm_num)
  obtain ⟨f, C', W, k1, k2, k3, k4⟩ := C49_rejected h1 (p := 1) (by norm_num) hw (Pairing.dlog Fr) 77 8 (by norm_num) 5 (by norm_num) (by norm_num) (by decide +kernel)
  exact ⟨fs, h1, f, C', W, _, k1, k2, k3, k4⟩

/-- A prover with commitment `7 + X` and proof 9 who gets the values 1, 2 on `±5` accepted knows a polynomial that vanishes at the secret. -/
example (t : Fr) : ∃ fs, newFFTSettings 3 = some fs ∧ (checkProofMulti (Pairing.dlog Fr) fs (newKZG (Pairing.dlog Fr) t 8) ((C 7 + X : Fr[X]).eval t • (Pairing.dlog Fr).g1)
      ((C 9 : Fr[X]).eval t • (Pairing.dlog Fr).g1) 5 [1, 2] = .ok true → ∃ J : Fr[X], (C 7 + X - J - C 9 * (X ^ 2 ^ 1 - C (5 ^ 2 ^ 1)) : Fr[X]) ≠ 0 ∧ (C 7 + X - J - C 9 * (X ^ 2 ^ 1 - C (5 ^ 2 ^ 1)) : Fr[X]).eval t = 0) := by
  obtain ⟨fs, w, h1, h2, ok⟩ := newFFTSettings_ok (s := 3) (by norm_num)
  have hw := scale2Root_sub h2 (k := 1) (by norm_num)
  refine ⟨fs, h1, fun h => ?_⟩
  rcases C68_binding h1 (p := 1) (by norm_num) hw (Pairing.dlog Fr) t 8 (by norm_num) (C 7 + X) (C 9) 5 (by decide +kernel) [1, 2] rfl h with k | ⟨J, -, -, k1, k2⟩
  · have := k 0 (by norm_num)
    simp only [eval_add, eval_C, eval_X, pow_zero, mul_one] at this
    exact absurd this (by decide +kernel)
  · exact ⟨J, k1, k2⟩

end DyCAPS
