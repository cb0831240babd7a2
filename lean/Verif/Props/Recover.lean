import Verif.Lemmas.Recover
import Verif.Spec.Poly

/-!
# Zero polynomials and the recovery of samples (C46, C47, C67)
-/

namespace DyCAPS

open Polynomial

theorem five_pow_ne_one {s : ℕ} (hs : s < 32) : (5 : Fr) ^ 2 ^ s ≠ 1 := by
  intro h
  have h1 : ((5 : ℕ) : ZMod frModulus) ^ 2 ^ 31 ≠ 1 := powMod_ne_one (f := 32) (by decide +kernel) (by norm_num) (by decide +kernel)
  apply h1
  have e : 2 ^ 31 = 2 ^ s * 2 ^ (31 - s) := by rw [← pow_add]; congr 1; omega
  rw [e, pow_mul]
  have : ((5 : ℕ) : ZMod frModulus) ^ 2 ^ s = 1 := by exact_mod_cast h
  rw [this, one_pow]

theorem five_ne_zero : (5 : Fr) ≠ 0 := by
  have : ((5 : ℕ) : ZMod frModulus) ≠ 0 := by
    rw [Ne, ZMod.natCast_eq_zero_iff]
    exact Nat.not_dvd_of_pos_of_lt (by norm_num) (by decide +kernel)
  exact_mod_cast this

theorem polyOf_map_coeff (Z : Fr[X]) (n : ℕ) (h : Z.degree < n) : polyOf ((List.range n).map Z.coeff) = Z := by
  ext j
  rw [coeff_polyOf]
  by_cases hj : j < n
  · exact getD_map_range _ n j 0 hj
  · rw [List.getD_eq_default _ _ (by simp; omega), coeff_eq_zero_of_degree_lt (lt_of_lt_of_le h (by exact_mod_cast not_lt.1 hj))]

theorem zeroPoly_length {fs : FFTSettings Fr} {missing : List ℕ} {length : ℕ} {r : List Fr × List Fr} (hne : missing ≠ []) (h : zeroPolyViaMultiplication fs missing length = .ok r) :
    ∃ p, length = 2 ^ p ∧ length ≤ fs.maxWidth := by
  have hl : missing.length ≠ 0 := by simpa using hne
  rw [zeroPolyViaMultiplication, if_neg hl] at h
  by_cases h1 : length > fs.maxWidth
  · rw [if_pos h1] at h; cases h
  rw [if_neg h1] at h
  by_cases h2 : (!isPowerOfTwo length) = true
  · rw [if_pos h2] at h; cases h
  rw [if_neg h2] at h
  by_cases h3 : length = 0
  · rw [if_pos h3] at h; cases h
  have h4 : isPowerOfTwo length = true := by simpa using h2
  rw [isPowerOfTwo, beq_iff_eq] at h4
  obtain ⟨p, hp⟩ := (Nat.and_sub_one_eq_zero_iff_isPowerOfTwo h3).1 h4
  exact ⟨p, hp, not_lt.1 h1⟩

/-! ## C46 -/

/-- A non-empty set of missing indices that is accepted gives the polynomial `Π (X - ω^v)` and its values on the domain; they vanish exactly at the missing indices. -/
theorem C46_zero_poly {s : ℕ} {fs : FFTSettings Fr} (h : newFFTSettings s = some fs) (missing : List ℕ) (length : ℕ) (hne : missing ≠ []) (hlt : ∀ v ∈ missing, v < length)
    (ev co : List Fr) (hok : zeroPolyViaMultiplication fs missing length = .ok (ev, co)) :
    ∃ p ω, length = 2 ^ p ∧ scale2Root p = some ω ∧ orderOf ω = length ∧ ev.length = length ∧ co.length = length ∧
      polyOf co = (missing.map fun v => X - C (ω ^ v)).prod ∧
      ∀ i < length, ev.getD i 0 = polyVal co (ω ^ i) ∧ (ev.getD i 0 = 0 ↔ i ∈ missing) := by
  obtain ⟨hs, w, hw, ok⟩ := newFFTSettings_some h
  obtain ⟨p, rfl, hle⟩ := zeroPoly_length hne hok
  have hp : p ≤ s := by rw [ok.width] at hle; exact (Nat.pow_le_pow_iff_right (by norm_num)).1 hle
  have hprim := ok.sub_root hp
  rcases zeroPoly_spec ok hp missing hne hlt with ⟨ev', co', h1, h2, h3, h4⟩ | ⟨h1, -⟩
  · rw [h1] at hok
    cases hok
    refine ⟨p, w ^ 2 ^ (s - p), rfl, scale2Root_sub hw hp, hprim.eq_orderOf.symm, by rw [h3]; simp, by rw [h4]; simp, ?_, ?_⟩
    · rw [h4, polyOf_map_coeff _ _ (vanish_degree_lt _ _ h2)]
      rfl
    · intro i hi
      have e : ev.getD i 0 = (vanish (fun v => (w ^ 2 ^ (s - p)) ^ v) missing).eval ((w ^ 2 ^ (s - p)) ^ i) := by rw [h3]; exact getD_map_range _ _ _ _ hi
      rw [e]
      refine ⟨by rw [h4, ← eval_polyOf, polyOf_map_coeff _ _ (vanish_degree_lt _ _ h2)], ?_⟩
      rw [vanish_eval]
      constructor
      · rintro ⟨v, hv, e⟩
        rwa [hprim.pow_inj hi (hlt v hv) e]
      · exact fun hv => ⟨i, hv, rfl⟩
  · rw [h1] at hok
    cases hok

/-- Up to half of the domain may be missing. -/
theorem C46_accepts {s p : ℕ} {fs : FFTSettings Fr} (h : newFFTSettings s = some fs) (hp : p ≤ s) (missing : List ℕ) (hlt : ∀ v ∈ missing, v < 2 ^ p) (hhalf : 2 * missing.length ≤ 2 ^ p) :
    ∃ r, zeroPolyViaMultiplication fs missing (2 ^ p) = .ok r := by
  obtain ⟨hs, w, hw, ok⟩ := newFFTSettings_some h
  by_cases hne : missing = []
  · subst hne
    exact ⟨_, rfl⟩
  · rcases zeroPoly_spec ok hp missing hne hlt with ⟨ev, co, h1, -⟩ | ⟨-, h2⟩
    · exact ⟨_, h1⟩
    · omega

/-- The function panics when all indices are missing, and, with settings for exactly the domain, when more than 63/64 of them are. -/
theorem C46_rejects {s : ℕ} {fs : FFTSettings Fr} (h : newFFTSettings s = some fs) (missing : List ℕ) :
    (∀ p ≤ s, (∀ v ∈ missing, v < 2 ^ p) → 2 ^ p ≤ missing.length → zeroPolyViaMultiplication fs missing (2 ^ p) = .error .panic) ∧
    (6 ≤ s → (∀ v ∈ missing, v < 2 ^ s) → 63 * 2 ^ (s - 6) < missing.length → zeroPolyViaMultiplication fs missing (2 ^ s) = .error .panic) := by
  obtain ⟨hs, w, hw, ok⟩ := newFFTSettings_some h
  refine ⟨fun p hp hlt hall => ?_, fun h6 hlt hbig => zeroPoly_panics ok h6 missing hbig hlt⟩
  have hpos : 0 < 2 ^ p := by positivity
  rcases zeroPoly_spec ok hp missing (by rintro rfl; simp at hall) hlt with ⟨ev, co, -, h2, -⟩ | ⟨h1, -⟩
  · omega
  · exact h1

/-- Indices 1 and 3 of 4 missing: `(X - ω)(X - ω³) = X² + 1` with values 2, 0, 2, 0. -/
example : ∃ fs ev co, newFFTSettings 2 = some fs ∧ zeroPolyViaMultiplication fs [1, 3] 4 = .ok (ev, co) ∧ (ev.getD 0 0 ≠ 0 ∧ ev.getD 1 0 = 0 ∧ ev.getD 2 0 ≠ 0 ∧ ev.getD 3 0 = 0) ∧
    polyVal co 0 = 1 ∧ (polyOf co).natDegree = 2 := by
  obtain ⟨fs, w, h1, -⟩ := newFFTSettings_ok (s := 2) (by norm_num)
  obtain ⟨⟨ev, co⟩, h2⟩ := C46_accepts h1 (p := 2) le_rfl [1, 3] (by simp) (by simp)
  obtain ⟨p, ω, h3, h4, h5, h6, h7, h8, h9⟩ := C46_zero_poly h1 [1, 3] 4 (by simp) (by simp) ev co h2
  have hp : p = 2 := (Nat.pow_right_injective (le_refl 2) h3).symm
  subst hp
  have hw : ω ^ 2 = -1 := pow_half (k := 1) (scale2Root_prim h4).2
  refine ⟨fs, ev, co, h1, h2, ⟨?_, ?_, ?_, ?_⟩, ?_, ?_⟩
  · rw [Ne, (h9 0 (by norm_num)).2]; simp
  · rw [(h9 1 (by norm_num)).2]; simp
  · rw [Ne, (h9 2 (by norm_num)).2]; simp
  · rw [(h9 3 (by norm_num)).2]; simp
  · rw [← eval_polyOf, h8]
    simp only [List.map_cons, List.map_nil, List.prod_cons, List.prod_nil, eval_mul, eval_sub, eval_X, eval_C, eval_one]
    linear_combination (ω ^ 2 - 1) * hw
  · rw [h8]
    exact vanish_natDegree (fun v => ω ^ v) [1, 3]

/-! ## C47 -/

theorem missing_count {K : Type} (samples : List (Option K)) : (missingIndices samples).length + samples.countP Option.isSome = samples.length := by
  have h1 : (missingIndices samples).length = samples.countP Option.isNone := by
    rw [missingIndices, ← List.countP_eq_length_filter]
    have e : samples = (List.range samples.length).map fun i => samples.getD i none := (map_range_getD samples samples.length none rfl).symm
    conv_rhs => rw [e, List.countP_map]
    rfl
  have h2 := List.length_eq_countP_add_countP Option.isSome (l := samples)
  have h3 : samples.countP Option.isNone = samples.countP fun a => !Option.isSome a := by
    congr 1
    funext a
    cases a <;> rfl
  rw [h1, h3]
  simp only [Bool.not_eq_true, Bool.decide_eq_false] at h2
  omega

/-- Whatever number of samples is missing: if the zero polynomial accepts the missing set and the present samples are values of a polynomial with no more coefficients than there are present samples,
all its values are returned. -/
theorem C47_recovery_any {s p : ℕ} {fs : FFTSettings Fr} {ω : Fr} (h : newFFTSettings s = some fs) (hp : p ≤ s) (hω : scale2Root p = some ω) (c : List Fr) (samples : List (Option Fr))
    (hlen : samples.length = 2 ^ p) (hmiss : none ∈ samples) (hacc : ∃ r, zeroPolyViaMultiplication fs (missingIndices samples) (2 ^ p) = .ok r)
    (hc : c.length ≤ samples.countP Option.isSome) (hdata : ∀ i < 2 ^ p, ∀ x, samples.getD i none = some x → x = polyVal c (ω ^ i)) :
    recoverPolyFromSamples fs samples (zeroPolyViaMultiplication fs) = .ok (some ((List.range (2 ^ p)).map fun i => polyVal c (ω ^ i))) := by
  obtain ⟨hs, w, hw, ok⟩ := newFFTSettings_some h
  have hω' : ω = w ^ 2 ^ (s - p) := Option.some_injective _ (hω.symm.trans (scale2Root_sub hw hp))
  subst hω'
  have hne : missingIndices samples ≠ [] := by
    intro e
    obtain ⟨i, hi, hi'⟩ := List.getElem_of_mem hmiss
    have := (mem_missingIndices samples i).2 ⟨hi, by rw [List.getD, List.getElem?_eq_getElem hi, hi']; rfl⟩
    rw [e] at this
    simp at this
  have hcnt := missing_count samples
  rcases zeroPoly_spec ok hp (missingIndices samples) hne fun v hv => hlen ▸ ((mem_missingIndices samples v).1 hv).1 with ⟨ev, co, h1, h2, h3, h4⟩ | ⟨h1, -⟩
  · rw [h3, h4] at h1
    have := recover_spec ok five_ne_zero (five_pow_ne_one hs) hp samples hlen h1 h2 (polyOf c) (lt_of_lt_of_le (degree_polyOf_lt c) (by exact_mod_cast (by omega : c.length ≤ 2 ^ p - (missingIndices samples).length)))
      fun i hi x hx => by rw [eval_polyOf]; exact (hdata i hi x hx).symm
    rw [this]
    simp only [eval_polyOf]
  · obtain ⟨r, hr⟩ := hacc
    rw [h1] at hr
    cases hr

/-- At least half of the `2n` samples present, at least one missing, data of degree below `n`: all samples are returned. Missing from the full statement: the case that no sample is missing, see
`C47_all_present_panics`. -/
theorem C47_recovery_partial {s p : ℕ} {fs : FFTSettings Fr} {ω : Fr} (h : newFFTSettings s = some fs) (hp : p + 1 ≤ s) (hω : scale2Root (p + 1) = some ω) (c : List Fr) (hc : c.length ≤ 2 ^ p)
    (samples : List (Option Fr)) (hlen : samples.length = 2 ^ (p + 1)) (hmiss : none ∈ samples) (hhalf : 2 ^ p ≤ samples.countP Option.isSome)
    (hdata : ∀ i < 2 ^ (p + 1), ∀ x, samples.getD i none = some x → x = polyVal c (ω ^ i)) :
    recoverPolyFromSamples fs samples (zeroPolyViaMultiplication fs) = .ok (some ((List.range (2 ^ (p + 1))).map fun i => polyVal c (ω ^ i))) := by
  refine C47_recovery_any h hp hω c samples hlen hmiss ?_ (by omega) hdata
  have hcnt := missing_count samples
  refine C46_accepts h hp _ (fun v hv => hlen ▸ ((mem_missingIndices samples v).1 hv).1) ?_
  rw [pow_succ] at *
  omega

/-- The property fails when nothing is missing: the zero polynomial of the empty set is taken to be 0 and recovery panics. -/
theorem C47_all_present_panics (fs : FFTSettings Fr) (samples : List Fr) (hne : samples ≠ []) :
    recoverPolyFromSamples fs (samples.map some) (zeroPolyViaMultiplication fs) = .error .panic := by
  have hm : missingIndices (samples.map some) = [] := by
    rw [List.eq_nil_iff_forall_not_mem]
    intro i hi
    obtain ⟨h1, h2⟩ := (mem_missingIndices _ i).1 hi
    rw [List.length_map] at h1
    rw [List.getD, List.getElem?_map, List.getElem?_eq_getElem h1] at h2
    cases h2
  cases samples with
  | nil => exact absurd rfl hne
  | cons x xs =>
    unfold recoverPolyFromSamples
    rw [hm, show zeroPolyViaMultiplication fs [] ((x :: xs).map some).length = .ok (List.replicate ((x :: xs).map some).length 0, List.replicate ((x :: xs).map some).length 0) from rfl, Go.ok_bind]
    simp only [List.map_cons, List.length_cons, List.length_map]
    rw [List.range_succ_eq_map, List.mapM_cons]
    have h0 : idx (List.replicate (xs.length + 1) (0 : Fr)) 0 = .ok 0 := rfl
    rw [h0, Go.ok_bind]
    simp only [List.getD_cons_zero, if_true]
    rfl

/-- Two of the four values of `7 + 2X` suffice. -/
example : ∃ fs ω, newFFTSettings 2 = some fs ∧ ω ^ 2 = -1 ∧
    recoverPolyFromSamples fs [none, some (7 + 2 * ω), some 5, none] (zeroPolyViaMultiplication fs) = .ok (some [9, 7 + 2 * ω, 5, 7 - 2 * ω]) := by
  obtain ⟨fs, w, h1, -⟩ := newFFTSettings_ok (s := 2) (by norm_num)
  obtain ⟨hs, ω, h4, -⟩ := newFFTSettings_some h1
  have hw : ω ^ 2 = -1 := pow_half (k := 1) (scale2Root_prim h4).2
  have hv : ∀ x : Fr, polyVal [7, 2] x = 7 + 2 * x := by intro x; simp [polyVal, Finset.sum_range_succ]
  have h3 : ω ^ 3 = -ω := by rw [pow_succ, hw]; ring
  refine ⟨fs, ω, h1, hw, ?_⟩
  rw [C47_recovery_partial (p := 1) h1 le_rfl h4 [7, 2] (by simp) _ (by simp) (by simp) (by simp)]
  · simp only [hv, show (2 : ℕ) ^ (1 + 1) = 4 by norm_num, show List.range 4 = [0, 1, 2, 3] from rfl, List.map_cons, List.map_nil, hw, h3, pow_zero, pow_one]
    congr 3
    norm_num
    ring
  · intro i hi x hx
    rw [hv]
    interval_cases i
    · simp at hx
    · simp at hx; rw [← hx, pow_one]
    · simp at hx; rw [← hx, hw]; norm_num
    · simp at hx

/-! ## C67 -/

/-- The check at the end never fires: whatever the present samples are, recovery of an accepted non-empty missing set returns some data that agrees with them. -/
theorem C67_never_detects {s p : ℕ} {fs : FFTSettings Fr} (h : newFFTSettings s = some fs) (hp : p ≤ s) (samples : List (Option Fr)) (hlen : samples.length = 2 ^ p) (hmiss : none ∈ samples)
    (hacc : ∃ r, zeroPolyViaMultiplication fs (missingIndices samples) (2 ^ p) = .ok r) :
    ∃ data, recoverPolyFromSamples fs samples (zeroPolyViaMultiplication fs) = .ok (some data) ∧ data.length = 2 ^ p ∧ ∀ i < 2 ^ p, ∀ x, samples.getD i none = some x → data.getD i 0 = x := by
  obtain ⟨hs, w, hw, ok⟩ := newFFTSettings_some h
  have hne : missingIndices samples ≠ [] := by
    intro e
    obtain ⟨i, hi, hi'⟩ := List.getElem_of_mem hmiss
    have := (mem_missingIndices samples i).2 ⟨hi, by rw [List.getD, List.getElem?_eq_getElem hi, hi']; rfl⟩
    rw [e] at this
    simp at this
  obtain ⟨R, hR1, hR2⟩ := exists_interpolant (ok.sub_root hp) samples hlen
  rcases zeroPoly_spec ok hp (missingIndices samples) hne fun v hv => hlen ▸ ((mem_missingIndices samples v).1 hv).1 with ⟨ev, co, h1, h2, h3, h4⟩ | ⟨h1, -⟩
  · rw [h3, h4] at h1
    refine ⟨_, recover_spec ok five_ne_zero (five_pow_ne_one hs) hp samples hlen h1 h2 R hR1 hR2, by simp, fun i hi x hx => ?_⟩
    rw [getD_map_range _ _ _ _ hi]
    exact hR2 i hi x hx
  · obtain ⟨r, hr⟩ := hacc
    rw [h1] at hr
    cases hr

/-- Three of four samples of a supposed line, one of them wrong: no polynomial of degree below 2 takes the values, and still data is returned without an error. -/
theorem C67_corruption_accepted : ∃ fs ω data, newFFTSettings 2 = some fs ∧ scale2Root 2 = some ω ∧
    (∀ a b : Fr, ¬ (polyVal [a, b] (ω ^ 0) = 1 ∧ polyVal [a, b] (ω ^ 1) = 0 ∧ polyVal [a, b] (ω ^ 2) = 0)) ∧
    recoverPolyFromSamples fs [some 1, some 0, some 0, none] (zeroPolyViaMultiplication fs) = .ok (some data) := by
  obtain ⟨fs, w, h1, -⟩ := newFFTSettings_ok (s := 2) (by norm_num)
  obtain ⟨hs, ω, h4, -⟩ := newFFTSettings_some h1
  have hm : missingIndices [some (1 : Fr), some 0, some 0, none] = [3] := by
    rw [missingIndices]
    simp [List.range_succ]
  obtain ⟨data, h2, -⟩ := C67_never_detects h1 (p := 2) le_rfl [some 1, some 0, some 0, none] rfl (by simp) (by
    rw [hm]
    exact C46_accepts h1 le_rfl [3] (by simp) (by simp))
  refine ⟨fs, ω, data, h1, h4, ?_, h2⟩
  rintro a b ⟨e0, e1, e2⟩
  have hw : ω ^ 2 = -1 := pow_half (k := 1) (scale2Root_prim h4).2
  simp [polyVal, Finset.sum_range_succ] at e0 e1 e2
  rw [hw] at e2
  have hb : b * (ω + 1) = 0 := by linear_combination e1 - e2
  rcases mul_eq_zero.1 hb with hb | hb
  · rw [hb] at e0 e1
    simp at e1
    rw [e1] at e0
    simp at e0
  · have h5 : ω = -1 := by linear_combination hb
    rw [h5] at hw
    have h6 : (2 : Fr) = 0 := by linear_combination hw
    have := (scale2Root_prim h4).2
    have h7 : ω ^ 2 ≠ 1 := this.pow_ne_one_of_pos_of_lt (by norm_num) (by norm_num)
    apply h7
    rw [h5]
    ring

end DyCAPS
