import Verif.Props.Backends
import Verif.Props.Dispatch
import Verif.Props.FFT
import Verif.Props.Kilic
import Verif.Props.Legacy
import Verif.Props.MultiProof
import Verif.Props.Padding
import Verif.Props.Recover
import Verif.Props.Setup

/-!
# Concrete cases of theorems that have none beside them
-/

namespace DyCAPS

/-- C06: two messages of one key and one of another in a committee of two; the dispatcher alone queues all of them. -/
example : ∃ s s', DRun 2 DState.init [.arrive mA, .arrive mB, .arrive mA] s ∧ (∃ evs', (∀ e ∈ evs', e.isDispatcher = true) ∧ DRun 2 s evs' s') ∧
    s'.queued "RBCEcho" [1] = [mA, mA] ∧ s'.queued "RBCReady" [1] = [mB] := by
  have h : DRun 2 DState.init [.arrive mA, .arrive mB, .arrive mA] _ := ((DRun.nil.snoc rfl).snoc rfl).snoc rfl
  obtain ⟨evs', s', h1, h2, h3, h4⟩ := C06_delivery_partial h (fun t id => le_trans (List.length_filter_le _ _) (by
    have : (3 : ℕ) ≤ 2 * 2 := by norm_num
    exact le_trans this (Nat.le_add_left _ _)))
  refine ⟨_, s', h, ⟨evs', h1, h2⟩, ?_, ?_⟩
  · have := h4 "RBCEcho" [1]
    rw [h3] at this
    exact this
  · have := h4 "RBCReady" [1]
    rw [h3] at this
    exact this

/-- C42: interpolating the values 6, 2, 0, 4 over four roots and evaluating again gives them back. -/
example : ∃ fs out, newFFTSettings 3 = some fs ∧ fft fs [6, 2, 0, 4] true = .ok (some out) ∧ fft fs out false = .ok (some [6, 2, 0, 4]) := by
  obtain ⟨fs, w, h1, -⟩ := newFFTSettings_ok (s := 3) (by norm_num)
  obtain ⟨k, ω, out, h2, h3, h4, h5, h6, h7, h8⟩ := C42_inverse h1 [6, 2, 0, 4] (by simp)
  have hk : k = 2 := by
    have := h3 2 (by simp)
    interval_cases k
    · simp at h2
    · simp at h2
    · rfl
  subst hk
  exact ⟨fs, out, h1, h5, (h8 rfl).1⟩

/-- C42: three values are not a power of two: `InplaceFFT` refuses them. -/
example (fs : FFTSettings Fr) (a b c : Fr) : inplaceFFT fs [a, b, c] false = .ok none := by
  refine (C42_inplace fs false).2 [a, b, c] (by simp) fun k hk => ?_
  rcases k with _ | _ | k
  · simp at hk
  · simp at hk
  · have : 4 ≤ 2 ^ (k + 2) := by rw [pow_add]; nlinarith [Nat.one_le_two_pow (n := k)]
    simp only [List.length_cons, List.length_nil] at hk
    omega

/-- C45: samples 1 and 0 with settings for eight values: the result is not on the line through them. -/
example : ∃ fs ω out, newFFTSettings 3 = some fs ∧ scale2Root 2 = some ω ∧ dasFFTExtension fs [1, 0] = .ok out ∧ out.getD 0 0 ≠ 2⁻¹ + 2⁻¹ * ω := by
  obtain ⟨fs, w, h1, -⟩ := newFFTSettings_ok (s := 3) (by norm_num)
  obtain ⟨ω, h2, h3⟩ := C45_extension_wrong le_rfl h1 1 0 one_ne_zero
  have hw : ω ^ 2 = -1 := pow_half (k := 1) (scale2Root_prim h2).2
  have h2' := two_ne_zero_fr
  obtain ⟨out, h4, h5⟩ := h3 [2⁻¹, 2⁻¹] rfl (by simp [polyVal, Finset.sum_range_succ]; field_simp; norm_num) (by simp [polyVal, Finset.sum_range_succ, hw])
  exact ⟨fs, ω, out, h1, h2, h4, by simpa [polyVal, Finset.sum_range_succ] using h5⟩

/-- C48: the line with values 7 and 3 at 1 and -1 is said to be 0 at -1. -/
example : evaluatePolyInEvaluationForm [(7 : Fr), 3] (-1) [1, -1] 0 = .ok 0 := by
  have h := scale2Root_eq 1 (by norm_num)
  have hw : (7 : Fr) ^ ((frModulus - 1) / 2 ^ 1) = -1 := by simpa using pow_half (k := 0) (scale2Root_prim h).2
  rw [hw] at h
  simpa using C48_domain h [7, 3] [1, -1] 0 rfl rfl (by
    intro i hi
    interval_cases i <;> simp) 1

/-- C47: three of four samples of a quadratic polynomial are enough, although they are more than half. -/
example : ∃ fs ω, newFFTSettings 2 = some fs ∧ ω ^ 2 = -1 ∧
    recoverPolyFromSamples fs [some 6, some (2 * ω - 2), some 2, none] (zeroPolyViaMultiplication fs) = .ok (some [6, 2 * ω - 2, 2, -2 * ω - 2]) := by
  obtain ⟨fs, w, h1, -⟩ := newFFTSettings_ok (s := 2) (by norm_num)
  obtain ⟨hs, ω, h4, -⟩ := newFFTSettings_some h1
  have hw : ω ^ 2 = -1 := pow_half (k := 1) (scale2Root_prim h4).2
  have hv : ∀ x : Fr, polyVal [1, 2, 3] x = 1 + 2 * x + 3 * x ^ 2 := by intro x; simp [polyVal, Finset.sum_range_succ]
  have h3 : ω ^ 3 = -ω := by rw [pow_succ, hw]; ring
  have hacc : ∃ r, zeroPolyViaMultiplication fs (missingIndices [some 6, some (2 * ω - 2), some 2, none]) (2 ^ 2) = .ok r := C46_accepts h1 (p := 2) le_rfl [3] (by simp) (by simp)
  refine ⟨fs, ω, h1, hw, ?_⟩
  rw [C47_recovery_any h1 le_rfl h4 [1, 2, 3] _ (by simp) (by simp) hacc (by simp)]
  · simp only [hv, show (2 : ℕ) ^ 2 = 4 by norm_num, show List.range 4 = [0, 1, 2, 3] from rfl, List.map_cons, List.map_nil, pow_zero, pow_one, hw, h3]
    exact congrArg (fun l => Except.ok (some l)) (by
      rw [List.cons.injEq, List.cons.injEq, List.cons.injEq, List.cons.injEq]
      exact ⟨by norm_num, by ring, by norm_num, by rw [neg_sq, hw]; ring, rfl⟩)
  · intro i hi x hx
    rw [hv]
    have hi' : i < 4 := by simpa using hi
    interval_cases i <;> simp at hx
    · rw [← hx]; norm_num
    · rw [← hx, pow_one, hw]; ring
    · rw [← hx, hw]; norm_num

/-- C70: 2^250 has 32 bytes in all back ends; 2^121 is written with permuted bytes. -/
example : pureFrTo32 ((2 ^ 250 : Fr)).val = .ok (frTo32 (2 ^ 250)) ∧ holFrTo32 ((2 ^ 250 : Fr)).val = .ok (frTo32 (2 ^ 250)) ∧ ¬ pureFrTo32 ((2 ^ 121 : Fr)).val = .ok (frTo32 (2 ^ 121)) := by
  refine ⟨(C70_high_partial (2 ^ 250) (by decide +kernel) 0 0).1, (C70_high_partial (2 ^ 250) (by decide +kernel) 0 0).2.1, by decide +kernel⟩

/-- C77: two values at the positions 2 and 0 of four, the first position written twice. -/
example : getSamples [2, 0, 2] ['a', 'b', 'c'] 4 = .ok [some 'b', none, some 'c', none] := by decide +kernel

/-- C80: one missing sample out of four panics. -/
example (a b c : Fr) : ∃ fs, newFFTSettings 2 = some fs ∧ erasureCodeRecover fs [some a, none, some b, some c] = .error .panic := by
  obtain ⟨fs, w, h1, -⟩ := newFFTSettings_ok (s := 2) (by norm_num)
  exact ⟨fs, h1, C80_few_missing_panics h1 le_rfl _ (by simp) (by simp) (by simp)⟩

/-- C82: without samples, four zeros with settings for eight values, and an error with settings for four. -/
example : ∃ fs fs', newFFTSettings 3 = some fs ∧ newFFTSettings 2 = some fs' ∧ erasureCodeRecover fs [none, none, none, none] = .ok (some [0, 0, 0, 0]) ∧
    erasureCodeRecover fs' [none, none, none, none] = .ok none := by
  obtain ⟨fs, w, h1, -⟩ := newFFTSettings_ok (s := 3) (by norm_num)
  obtain ⟨fs', w', h2, -⟩ := newFFTSettings_ok (s := 2) (by norm_num)
  exact ⟨fs, fs', h1, h2, C82_no_samples_zeros (p := 2) h1 (by norm_num), C82_no_samples_refused_partial h2⟩

/-- C105: "+17" and "017" are both 17. -/
example : kSetFr 0 "+17".toList = rep 17 ∧ kSetFr 0 "017".toList = rep 17 := by decide +kernel

end DyCAPS
