import Verif.Lemmas.Legacy
import Verif.Props.Recover

/-! The older recovery of samples, `ErasureCodeRecover`. -/

namespace DyCAPS

open Polynomial

theorem two_pow_pow_ne_one {s : ℕ} (hs : s < 32) : (2 : Fr) ^ 2 ^ s ≠ 1 := by
  intro h
  have h1 : ((2 : ℕ) : ZMod frModulus) ^ 2 ^ 31 ≠ 1 := powMod_ne_one (f := 32) (by decide +kernel) (by norm_num) (by decide +kernel)
  apply h1
  have e : 2 ^ 31 = 2 ^ s * 2 ^ (31 - s) := by rw [← pow_add]; congr 1; omega
  rw [e, pow_mul]
  have : ((2 : ℕ) : ZMod frModulus) ^ 2 ^ s = 1 := by exact_mod_cast h
  rw [this, one_pow]

theorem two_ne_zero_fr : (2 : Fr) ≠ 0 := by
  have : ((2 : ℕ) : ZMod frModulus) ≠ 0 := by
    rw [Ne, ZMod.natCast_eq_zero_iff]
    exact Nat.not_dvd_of_pos_of_lt (by norm_num) (by decide +kernel)
  exact_mod_cast this

/-- Samples of a polynomial with at most as many coefficients as there are samples present: all samples are returned, provided that more than four samples are missing or that at least half of the samples (less one)
are. Missing from the full statement: few missing samples, see `C80_few_missing_panics`. -/
theorem C80_recovers_partial {s p : ℕ} {fs : FFTSettings Fr} {ω : Fr} (h : newFFTSettings s = some fs) (hp : p ≤ s) (hω : scale2Root p = some ω) (c : List Fr) (samples : List (Option Fr))
    (hlen : samples.length = 2 ^ p) (hany : 0 < samples.countP Option.isSome) (hc : c.length ≤ samples.countP Option.isSome)
    (hmiss : 4 < samples.countP Option.isNone ∨ 2 ^ p < 2 * (samples.countP Option.isNone + 1))
    (hdata : ∀ i < 2 ^ p, ∀ x, samples.getD i none = some x → x = polyVal c (ω ^ i)) :
    erasureCodeRecover fs samples = .ok (some ((List.range (2 ^ p)).map fun i => polyVal c (ω ^ i))) := by
  obtain ⟨hs, w, hw, ok⟩ := newFFTSettings_some h
  have hω' : ω = w ^ 2 ^ (s - p) := Option.some_injective _ (hω.symm.trans (scale2Root_sub hw hp))
  subst hω'
  have hcnt := missing_count samples
  have hnone : samples.countP Option.isNone = (missingIndices samples).length := by
    have h2 := List.length_eq_countP_add_countP Option.isSome (l := samples)
    have e : (fun a : Option Fr => decide ¬ a.isSome = true) = Option.isNone := by funext a; cases a <;> rfl
    rw [e] at h2
    omega
  rw [hnone] at hmiss
  have hbig : 4 < (missingIndices samples).length ∨ nextPowOf2 ((missingIndices samples).length + 1) = 2 ^ p :=
    hmiss.imp id fun h => nextPowOf2_eq (by omega) h
  have := legacy_spec ok two_ne_zero_fr (two_pow_pow_ne_one hs) hp (by omega) samples hlen (by omega) hbig (polyOf c)
    (lt_of_lt_of_le (degree_polyOf_lt c) (by exact_mod_cast (by omega : c.length ≤ 2 ^ p - (missingIndices samples).length))) fun i hi x hx => by rw [eval_polyOf]; exact (hdata i hi x hx).symm
  rw [this]
  simp only [eval_polyOf]

/-- The property fails when few samples are missing: with at most four missing samples, and at least twice as many samples plus two in total, the recovery panics, whatever the samples are. -/
theorem C80_few_missing_panics {s p : ℕ} {fs : FFTSettings Fr} (h : newFFTSettings s = some fs) (hp : p ≤ s) (samples : List (Option Fr)) (hlen : samples.length = 2 ^ p)
    (hfew : samples.countP Option.isNone ≤ 4) (hmany : 2 * (samples.countP Option.isNone + 1) ≤ 2 ^ p) : erasureCodeRecover fs samples = .error .panic := by
  obtain ⟨hs, w, hw, ok⟩ := newFFTSettings_some h
  have hcnt := missing_count samples
  have hnone : samples.countP Option.isNone = (missingIndices samples).length := by
    have h2 := List.length_eq_countP_add_countP Option.isSome (l := samples)
    have e : (fun a : Option Fr => decide ¬ a.isSome = true) = Option.isNone := by funext a; cases a <;> rfl
    rw [e] at h2
    omega
  rw [hnone] at hfew hmany
  refine legacy_panics ok hp (by omega) samples hlen hfew ?_
  obtain ⟨q, hq1, hq2, hq3⟩ := nextPowOf2_spec ((missingIndices samples).length + 1)
  rw [hq1]
  cases p with
  | zero => simp only [pow_zero] at hmany; omega
  | succ p =>
    rw [pow_succ] at hmany
    exact Nat.pow_lt_pow_right (by norm_num) (Nat.lt_succ_of_le (hq3 p (by omega)))

/-- The property as it is stated fails: all eight values of the polynomial 7, none of them missing, and the recovery panics. -/
theorem C80_refuted : ¬ ∀ (s p : ℕ) (fs : FFTSettings Fr) (ω : Fr) (c : List Fr) (samples : List (Option Fr)), newFFTSettings s = some fs → p ≤ s → scale2Root p = some ω → samples.length = 2 ^ p →
    0 < samples.countP Option.isSome → c.length ≤ samples.countP Option.isSome → (∀ i < 2 ^ p, ∀ x, samples.getD i none = some x → x = polyVal c (ω ^ i)) →
    erasureCodeRecover fs samples = .ok (some ((List.range (2 ^ p)).map fun i => polyVal c (ω ^ i))) := by
  intro hall
  obtain ⟨fs, w, h1, -⟩ := newFFTSettings_ok (s := 3) (by norm_num)
  obtain ⟨-, ω, h4, -⟩ := newFFTSettings_some h1
  have e1 := hall 3 3 fs ω [7] (List.replicate 8 (some 7)) h1 le_rfl h4 (by simp) (by simp) (by simp) (by
    intro i hi x hx
    have hi' : i < 8 := by simpa using hi
    rw [List.getD, List.getElem?_replicate, if_pos hi'] at hx
    simpa [polyVal] using hx.symm)
  have e2 := C80_few_missing_panics h1 (p := 3) le_rfl (List.replicate 8 (some 7)) (by simp) (by simp) (by simp)
  rw [e2] at e1
  cases e1

/-- Two of the four values of `7 + 2X` suffice for the older recovery too. -/
example : ∃ fs ω, newFFTSettings 2 = some fs ∧ ω ^ 2 = -1 ∧ erasureCodeRecover fs [none, some (7 + 2 * ω), some 5, none] = .ok (some [9, 7 + 2 * ω, 5, 7 - 2 * ω]) := by
  obtain ⟨fs, w, h1, -⟩ := newFFTSettings_ok (s := 2) (by norm_num)
  obtain ⟨hs, ω, h4, -⟩ := newFFTSettings_some h1
  have hw : ω ^ 2 = -1 := pow_half (k := 1) (scale2Root_prim h4).2
  have hv : ∀ x : Fr, polyVal [7, 2] x = 7 + 2 * x := by intro x; simp [polyVal, Finset.sum_range_succ]
  have h3 : ω ^ 3 = -ω := by rw [pow_succ, hw]; ring
  refine ⟨fs, ω, h1, hw, ?_⟩
  rw [C80_recovers_partial (p := 2) h1 le_rfl h4 [7, 2] _ (by simp) (by simp) (by simp) (by simp)]
  · simp only [hv, show (2 : ℕ) ^ 2 = 4 by norm_num, show List.range 4 = [0, 1, 2, 3] from rfl, List.map_cons, List.map_nil, hw, h3, pow_zero, pow_one]
    congr 3
    norm_num
    ring
  · intro i hi x hx
    rw [hv]
    have hi' : i < 4 := by simpa using hi
    interval_cases i <;> simp at hx
    · rw [← hx, pow_one]
    · rw [← hx, hw]; norm_num

/-! ## Soundness -/

theorem recoverAttempts_sound {K : Type} [Field K] [DecidableEq K] (fs : FFTSettings K) (vals : List (Option K)) (z pz : List K) : ∀ (left k : ℕ) (out : List K),
    recoverAttempts fs vals z pz left k = .ok (some out) → ∀ i x, vals.getD i none = some x → out[i]? = some x
  | 0, _, _, h => by simp [recoverAttempts] at h
  | left + 1, k, out, h => by
    rw [recoverAttempts] at h
    cases e1 : fft fs (pOfKX pz (k : K)) false with
    | error e => rw [e1] at h; cases h
    | ok r1 =>
      rw [e1, Go.ok_bind] at h
      cases r1 with
      | none => simp [Go.pure_eq] at h
      | some v1 =>
        simp only at h
        cases e2 : fft fs (pOfKX z (k : K)) false with
        | error e => rw [e2] at h; cases h
        | ok r2 =>
          rw [e2, Go.ok_bind] at h
          cases r2 with
          | none => simp [Go.pure_eq] at h
          | some v2 =>
            simp only at h
            cases e3 : multiInv v2 with
            | error e => rw [e3] at h; cases h
            | ok inv =>
              rw [e3, Go.ok_bind] at h
              generalize (List.range v1.length).mapM (fun i => do pure (at0 v1 i * (← idx inv i)) : ℕ → Go K) = r4 at h
              cases r4 with
              | error e => cases h
              | ok v4 =>
                rw [Go.ok_bind] at h
                cases e5 : fft fs v4 true with
                | error e => rw [e5] at h; cases h
                | ok r5 =>
                  rw [e5, Go.ok_bind] at h
                  cases r5 with
                  | none => simp [Go.pure_eq] at h
                  | some v5 =>
                    simp only at h
                    cases e6 : fft fs (unKX (k : K)⁻¹ v5) false with
                    | error e => rw [e6] at h; cases h
                    | ok r6 =>
                      rw [e6, Go.ok_bind] at h
                      cases r6 with
                      | none => simp [Go.pure_eq] at h
                      | some output =>
                        simp only at h
                        cases e7 : checkOutput output 0 vals with
                        | error e => rw [e7] at h; cases h
                        | ok b =>
                          rw [e7, Go.ok_bind] at h
                          cases b with
                          | false => exact recoverAttempts_sound fs vals z pz left (k + 1) out (by simpa using h)
                          | true =>
                            simp only [if_true, Go.pure_eq] at h
                            have ho : output = out := Option.some.inj (Except.ok.inj h)
                            intro i x hx
                            have := checkOutput_sound output vals 0 e7 i x hx
                            rwa [Nat.zero_add, ho] at this

/-- Whatever the older recovery returns agrees with every sample that was given, for all settings and all samples, also when they are not a power of two many. -/
theorem C81_keeps_samples (fs : FFTSettings Fr) (samples : List (Option Fr)) (out : List Fr) (h : erasureCodeRecover fs samples = .ok (some out)) (i : ℕ) (x : Fr) (hx : samples.getD i none = some x) :
    out[i]? = some x := by
  unfold erasureCodeRecover at h
  split at h
  · cases h
  · cases e1 : zPoly fs 65 (missingIndices samples) (fs.maxWidth / samples.length) with
    | error e => rw [e1] at h; cases h
    | ok z =>
      rw [e1, Go.ok_bind] at h
      cases e2 : fft fs z false with
      | error e => rw [e2] at h; cases h
      | ok r2 =>
        rw [e2, Go.ok_bind] at h
        cases r2 with
        | none => simp [Go.pure_eq] at h
        | some zv =>
          simp only at h
          cases e3 : timesZ samples zv with
          | error e => rw [e3] at h; cases h
          | ok v3 =>
            rw [e3, Go.ok_bind] at h
            cases e4 : fft fs v3 true with
            | error e => rw [e4] at h; cases h
            | ok r4 =>
              rw [e4, Go.ok_bind] at h
              cases r4 with
              | none => simp [Go.pure_eq] at h
              | some v4 => exact recoverAttempts_sound fs samples z v4 10 2 out (by simpa using h) i x hx

/-- The recovered values are also those of one polynomial with no more coefficients than there are samples present, so they are determined by the samples: for power-of-two lengths and at least one sample. -/
theorem C81_low_degree {s p : ℕ} {fs : FFTSettings Fr} {ω : Fr} (h : newFFTSettings s = some fs) (hp : p ≤ s) (hω : scale2Root p = some ω) (samples : List (Option Fr)) (hlen : samples.length = 2 ^ p)
    (hany : 0 < samples.countP Option.isSome) (out : List Fr) (hout : erasureCodeRecover fs samples = .ok (some out)) :
    ∃ c : List Fr, c.length ≤ samples.countP Option.isSome ∧ out = (List.range (2 ^ p)).map fun i => polyVal c (ω ^ i) := by
  obtain ⟨hs, w, hw, ok⟩ := newFFTSettings_some h
  have hω' : ω = w ^ 2 ^ (s - p) := Option.some_injective _ (hω.symm.trans (scale2Root_sub hw hp))
  have hcnt := missing_count samples
  obtain ⟨R, hR1, hR2⟩ := exists_interpolant (ok.sub_root hp) samples hlen
  rw [show 2 ^ p - (missingIndices samples).length = samples.countP Option.isSome by omega] at hR1
  refine ⟨(List.range (samples.countP Option.isSome)).map R.coeff, by simp, ?_⟩
  by_cases hm : 4 < samples.countP Option.isNone ∨ 2 ^ p < 2 * (samples.countP Option.isNone + 1)
  · rw [C80_recovers_partial h hp hω ((List.range (samples.countP Option.isSome)).map R.coeff) samples hlen hany (by simp) hm] at hout
    · exact (Option.some.inj (Except.ok.inj hout)).symm
    · intro i hi x hx
      rw [← eval_polyOf, polyOf_map_coeff R _ hR1, hω']
      exact (hR2 i hi x hx).symm
  · rw [C80_few_missing_panics h hp samples hlen (by omega) (by omega)] at hout
    cases hout

/-- Arbitrary samples: the two present ones are kept and the others lie on the line through them. -/
example : ∃ fs ω out, newFFTSettings 2 = some fs ∧ scale2Root 2 = some ω ∧ erasureCodeRecover fs [some 1, none, some 0, none] = .ok (some out) ∧ out[0]? = some 1 ∧ out[2]? = some 0 ∧
    ∃ a b, out = (List.range 4).map fun i => a + b * ω ^ i := by
  obtain ⟨fs, w, h1, -⟩ := newFFTSettings_ok (s := 2) (by norm_num)
  obtain ⟨hs, ω, h4, ok⟩ := newFFTSettings_some h1
  have hw : ω ^ 2 = -1 := pow_half (k := 1) (scale2Root_prim h4).2
  have hv : ∀ a b x : Fr, polyVal [a, b] x = a + b * x := by intro a b x; simp [polyVal, Finset.sum_range_succ]
  have hrec := C80_recovers_partial (p := 2) h1 le_rfl h4 [2⁻¹, 2⁻¹] [some 1, none, some 0, none] (by simp) (by simp) (by simp) (by simp) (by
    intro i hi x hx
    rw [hv]
    have hi' : i < 4 := by simpa using hi
    have h2 := two_ne_zero_fr
    interval_cases i <;> simp at hx
    · rw [← hx, pow_zero]; field_simp; norm_num
    · rw [← hx, hw]; ring)
  refine ⟨fs, ω, _, h1, h4, hrec, C81_keeps_samples fs _ _ hrec 0 1 rfl, C81_keeps_samples fs _ _ hrec 2 0 rfl, 2⁻¹, 2⁻¹, ?_⟩
  simp only [hv]
  rfl

/-! ## No samples at all -/

theorem missing_all {K : Type} (n : ℕ) : missingIndices (List.replicate n (none : Option K)) = List.range n := by
  rw [missingIndices, List.length_replicate, List.filter_eq_self]
  intro i hi
  rw [List.getD, List.getElem?_replicate, if_pos (List.mem_range.1 hi)]
  rfl

theorem fft_zeros {fs : FFTSettings Fr} {s : ℕ} {w : Fr} (ok : fs.Ok s w) {p : ℕ} (hp : p ≤ s) (inv : Bool) : fft fs (List.replicate (2 ^ p) 0) inv = .ok (some (List.replicate (2 ^ p) 0)) := by
  have e : ∀ g : ℕ → Fr, (∀ i, g i = 0) → (List.range (2 ^ p)).map g = List.replicate (2 ^ p) 0 := fun g hg => by
    rw [List.eq_replicate_iff]
    refine ⟨by simp, fun x hx => ?_⟩
    obtain ⟨i, -, rfl⟩ := List.mem_map.1 hx
    exact hg i
  rw [fft_pow ok hp _ (by simp)]
  cases inv with
  | false => rw [inplace_eval ok hp 0 (by rw [degree_zero]; exact WithBot.bot_lt_coe _) _ (by simp) (fun j _ => by rw [getD_replicate, coeff_zero]), e _ fun i => by rw [eval_zero]]
  | true => rw [inplace_coeff ok hp 0 (by rw [degree_zero]; exact WithBot.bot_lt_coe _) _ (by simp) (fun j _ => by rw [getD_replicate, eval_zero]), e _ fun i => coeff_zero i]

theorem scale_zeros (k : Fr) (n : ℕ) : pOfKX (List.replicate n 0) k = List.replicate n 0 := by
  refine List.ext_getElem (by rw [pOfKX_length]) fun i h1 h2 => ?_
  have : (pOfKX (List.replicate n 0) k).getD i 0 = 0 := by rw [pOfKX, scalePoly_getD, getD_replicate, zero_mul]
  rw [List.getElem_replicate]
  rwa [List.getD, List.getElem?_eq_getElem h1] at this

theorem unscale_zeros (k : Fr) (n : ℕ) : unKX k (List.replicate n 0) = List.replicate n 0 := by
  refine List.ext_getElem (by rw [unKX_length]) fun i h1 h2 => ?_
  have : (unKX k (List.replicate n 0)).getD i 0 = 0 := by rw [unKX_getD, getD_replicate, zero_mul]
  rw [List.getElem_replicate]
  rwa [List.getD, List.getElem?_eq_getElem h1] at this

/-- Without any sample, the recovery of fewer values than the settings allow returns zeros and no error. -/
theorem C82_no_samples_zeros {s p : ℕ} {fs : FFTSettings Fr} (h : newFFTSettings s = some fs) (hp : p < s) : erasureCodeRecover fs (List.replicate (2 ^ p) none) = .ok (some (List.replicate (2 ^ p) 0)) := by
  obtain ⟨hs, w, hw, ok⟩ := newFFTSettings_some h
  obtain ⟨z, c, hz1, hc0, hz2, hz3⟩ := legacy_z ok hp.le (by omega) (List.replicate (2 ^ p) (none : Option Fr)) (by simp)
  have hpos : 0 < 2 ^ p := by positivity
  have hzl : z.length = 2 ^ p + 1 := by
    rw [hz3, missing_all, List.length_range]
    split
    · rfl
    · rw [if_pos rfl]
  have hzn : nextPowOf2 z.length = 2 ^ (p + 1) := by rw [hzl]; exact nextPowOf2_eq (by rw [pow_succ]; omega) (by rw [pow_succ]; omega)
  unfold erasureCodeRecover
  rw [if_neg (by rw [List.length_replicate]; omega), hz1, Go.ok_bind, fft_eval_pad ok hp z _ hz2 hzn, Go.ok_bind]
  simp only
  have ht : ∀ zv : List Fr, timesZ (List.replicate (2 ^ p) none) zv = .ok (List.replicate (2 ^ p) 0) := by
    intro zv
    rw [timesZ, mapM_ok _ (fun _ => 0), List.length_replicate]
    · congr 1
      rw [List.map_const', List.length_range]
    · intro i hi
      rw [getD_replicate]
      rfl
  rw [ht, Go.ok_bind, fft_zeros ok hp.le, Go.ok_bind]
  simp only
  rw [recoverAttempts, scale_zeros, fft_zeros ok hp.le, Go.ok_bind]
  simp only
  rw [fft_eval_pad ok hp (pOfKX z _) _ (pOfKX_getD z _ _ hz2) (by rw [pOfKX_length]; exact hzn), Go.ok_bind]
  simp only
  obtain ⟨inv, hi1, hi2⟩ := multiInv_any ((List.range (2 ^ (p + 1))).map fun i => ((C c * vanish (fun v => (w ^ 2 ^ (s - p)) ^ v) (missingIndices (List.replicate (2 ^ p) (none : Option Fr)))).comp
    (C ((2 : ℕ) : Fr) * X)).eval ((w ^ 2 ^ (s - (p + 1))) ^ i)) (by rw [ne_eq, List.map_eq_nil_iff, List.range_eq_nil]; positivity)
  rw [hi1, Go.ok_bind, mapM_ok _ (fun _ => 0), Go.ok_bind]
  swap
  · intro i hi
    rw [List.length_replicate] at hi
    rw [List.length_map, List.length_range, pow_succ] at hi2
    have := List.mem_range.1 hi
    rw [idx_of_lt (by omega), Go.ok_bind, at0, getD_replicate, zero_mul]
    rfl
  rw [List.map_const', List.length_range, List.length_replicate, fft_zeros ok hp.le, Go.ok_bind]
  simp only
  rw [unscale_zeros, fft_zeros ok hp.le, Go.ok_bind]
  simp only
  rw [checkOutput_true]
  · rfl
  · intro j x hx
    rw [getD_replicate] at hx
    cases hx

/-- Without any sample, the recovery of as many values as the settings allow is refused. Missing from the full statement: fewer values, see `C82_no_samples_zeros`. -/
theorem C82_no_samples_refused_partial {s : ℕ} {fs : FFTSettings Fr} (h : newFFTSettings s = some fs) : erasureCodeRecover fs (List.replicate (2 ^ s) none) = .ok none := by
  obtain ⟨hs, w, hw, ok⟩ := newFFTSettings_some h
  obtain ⟨z, c, hz1, hc0, hz2, hz3⟩ := legacy_z ok le_rfl (by omega) (List.replicate (2 ^ s) (none : Option Fr)) (by simp)
  have hpos : 0 < 2 ^ s := by positivity
  have hzl : z.length = 2 ^ s + 1 := by
    rw [hz3, missing_all, List.length_range]
    split
    · rfl
    · rw [if_pos rfl]
  unfold erasureCodeRecover
  rw [if_neg (by rw [List.length_replicate]; omega), hz1, Go.ok_bind, fft, if_pos (by rw [ok.width]; omega), Go.ok_bind]
  rfl

/-- The property as it is stated fails. -/
theorem C82_refuted : ¬ ∀ (s p : ℕ) (fs : FFTSettings Fr), newFFTSettings s = some fs → p ≤ s → erasureCodeRecover fs (List.replicate (2 ^ p) none) = .ok none := by
  intro hall
  obtain ⟨fs, w, h1, -⟩ := newFFTSettings_ok (s := 3) (by norm_num)
  have e1 := hall 3 2 fs h1 (by norm_num)
  rw [C82_no_samples_zeros h1 (by norm_num)] at e1
  cases e1

end DyCAPS
