import Mathlib.LinearAlgebra.Lagrange
import Verif.Lemmas.Interp
import Verif.Lemmas.ZeroTree

/-! Lemmas about the recovery of samples. -/

namespace DyCAPS

open Finset Polynomial

section
variable {K : Type} [Field K] [DecidableEq K]

/-! ## Shifting -/

omit [DecidableEq K] in
theorem scalePoly_length (f : K) : ∀ (l : List K) (a : K), (scalePoly f a l).length = l.length
  | [], _ => rfl
  | _ :: l, a => by rw [scalePoly, List.length_cons, List.length_cons, scalePoly_length f l]

omit [DecidableEq K] in
theorem scalePoly_getD (f : K) : ∀ (l : List K) (a : K) (k : ℕ), (scalePoly f a l).getD k 0 = l.getD k 0 * (a * f ^ k)
  | [], _, _ => by simp [scalePoly]
  | x :: l, a, 0 => by simp [scalePoly]
  | x :: l, a, k + 1 => by
    rw [scalePoly, List.getD_cons_succ, List.getD_cons_succ, scalePoly_getD f l, pow_succ]
    ring

omit [DecidableEq K] in
theorem comp_scale_degree (P : K[X]) (f : K) {n : ℕ} (h : P.degree < n) : (P.comp (C f * X)).degree < n := by
  rw [degree_lt_iff_coeff_zero] at h ⊢
  intro m hm
  rw [comp_C_mul_X_coeff, h m hm, zero_mul]

/-! ## Missing indices -/

omit [DecidableEq K] in
theorem mem_missingIndices (samples : List (Option K)) (i : ℕ) : i ∈ missingIndices samples ↔ i < samples.length ∧ samples.getD i none = none := by
  simp [missingIndices]

/-! ## Recovery -/

/-- With a correct zero polynomial `Z` of the missing indices, recovery returns the values of the polynomial `R` of degree below the number of present samples that takes the sample values. -/
theorem recover_spec {fs : FFTSettings K} {s : ℕ} {w : K} (hfs : fs.Ok s w) (h5 : (5 : K) ≠ 0) (h5s : (5 : K) ^ 2 ^ s ≠ 1) {p : ℕ} (hp : p ≤ s) (samples : List (Option K))
    (hlen : samples.length = 2 ^ p) {zeroPolyFn : List ℕ → ℕ → Go (List K × List K)}
    (hz : zeroPolyFn (missingIndices samples) (2 ^ p) = .ok
      ((List.range (2 ^ p)).map (fun i => (vanish (fun v => (w ^ 2 ^ (s - p)) ^ v) (missingIndices samples)).eval ((w ^ 2 ^ (s - p)) ^ i)),
        (List.range (2 ^ p)).map (vanish (fun v => (w ^ 2 ^ (s - p)) ^ v) (missingIndices samples)).coeff))
    (hM : (missingIndices samples).length < 2 ^ p) (R : K[X]) (hR : R.degree < (2 ^ p - (missingIndices samples).length : ℕ))
    (hval : ∀ i < 2 ^ p, ∀ x, samples.getD i none = some x → R.eval ((w ^ 2 ^ (s - p)) ^ i) = x) :
    recoverPolyFromSamples fs samples zeroPolyFn = .ok (some ((List.range (2 ^ p)).map fun i => R.eval ((w ^ 2 ^ (s - p)) ^ i))) := by
  set ω := w ^ 2 ^ (s - p) with hω
  have hprim : IsPrimitiveRoot ω (2 ^ p) := hfs.sub_root hp
  set ms := missingIndices samples with hms
  set Z := vanish (fun v => ω ^ v) ms with hZ
  have hZd : Z.degree < (2 ^ p : ℕ) := vanish_degree_lt _ _ hM
  have hroot : ∀ i < 2 ^ p, (Z.eval (ω ^ i) = 0 ↔ samples.getD i none = none) := by
    intro i hi
    rw [hZ, vanish_eval]
    constructor
    · rintro ⟨v, hv, e⟩
      obtain ⟨hv1, hv2⟩ := (mem_missingIndices samples v).1 hv
      rw [hprim.pow_inj hi (by omega) e, hv2]
    · intro h
      exact ⟨i, (mem_missingIndices samples i).2 ⟨by omega, h⟩, rfl⟩
  have hRZ : (R * Z).degree < (2 ^ p : ℕ) := by
    by_cases h0 : R = 0
    · rw [h0, zero_mul, degree_zero]; exact WithBot.bot_lt_coe _
    · have h1 : R.natDegree < 2 ^ p - ms.length := (natDegree_lt_iff_degree_lt h0).2 hR
      have h2 : (R * Z).natDegree = R.natDegree + ms.length := by
        rw [mul_comm, (vanish_monic _ _).natDegree_mul' h0, vanish_natDegree, add_comm]
      rw [degree_eq_natDegree (mul_ne_zero h0 (vanish_monic _ _).ne_zero), h2]
      exact_mod_cast (by omega : R.natDegree + ms.length < 2 ^ p)
  have hRd : R.degree < (2 ^ p : ℕ) := lt_of_lt_of_le hR (by exact_mod_cast Nat.sub_le _ _)
  -- the shifted points are no roots of `Z`
  have hshift : ∀ i, Z.eval (5⁻¹ * ω ^ i) ≠ 0 := by
    intro i h
    rw [hZ, vanish_eval] at h
    obtain ⟨v, -, e⟩ := h
    have e1 : ω ^ i = 5 * ω ^ v := by rw [← e, ← mul_assoc, mul_inv_cancel₀ h5, one_mul]
    have e2 : (ω ^ i) ^ 2 ^ s = 5 ^ 2 ^ s * (ω ^ v) ^ 2 ^ s := by rw [e1, mul_pow]
    have e3 : ∀ j, (ω ^ j) ^ 2 ^ s = 1 := by
      intro j
      rw [hω, ← pow_mul, ← pow_mul, show 2 ^ (s - p) * (j * 2 ^ s) = 2 ^ s * (2 ^ (s - p) * j) by ring, pow_mul, hfs.prim.pow_eq_one, one_pow]
    rw [e3, e3, mul_one] at e2
    exact h5s e2.symm
  have hidx : ∀ {α : Type} (g : ℕ → α) (i : ℕ), i < 2 ^ p → idx ((List.range (2 ^ p)).map g) i = .ok (g i) := by
    intro α g i hi
    rw [idx_of_lt (by simpa using hi)]
    simp
  have hgetD : ∀ (g : ℕ → K) (j : ℕ), j < 2 ^ p → ((List.range (2 ^ p)).map g).getD j 0 = g j := fun g j hj => getD_map_range g (2 ^ p) j 0 hj
  have hll : ∀ g : ℕ → K, ((List.range (2 ^ p)).map g).length = 2 ^ p := fun g => by simp
  unfold recoverPolyFromSamples
  rw [hlen, hz, Go.ok_bind]
  simp only
  rw [mapM_ok _ (fun i => (R * Z).eval (ω ^ i)), Go.ok_bind]
  swap
  · intro i hi
    have hi' := List.mem_range.1 hi
    rw [hidx _ i hi', Go.ok_bind]
    have hr := hroot i hi'
    cases hsi : samples.getD i none with
    | none =>
      simp only [hr.2 hsi, if_true, eval_mul, mul_zero]
      rfl
    | some x =>
      have : Z.eval (ω ^ i) ≠ 0 := fun h => by rw [hr.1 h] at hsi; cases hsi
      simp only [if_neg this, eval_mul, hval i hi' x hsi]
      rfl
  rw [fft_pow hfs hp _ (hll _), inplace_coeff hfs hp (R * Z) hRZ _ (hll _) fun j hj => hgetD _ j hj]
  simp only [Go.ok_bind]
  rw [fft_pow hfs hp _ (by rw [shiftPoly, scalePoly_length, hll]), inplace_eval hfs hp ((R * Z).comp (C 5⁻¹ * X)) (comp_scale_degree _ _ hRZ) _ (by rw [shiftPoly, scalePoly_length, hll]) fun j hj => by
    rw [shiftPoly, scalePoly_getD, hgetD _ j hj, comp_C_mul_X_coeff, one_mul]]
  simp only [Go.ok_bind]
  rw [fft_pow hfs hp _ (by rw [shiftPoly, scalePoly_length, hll]), inplace_eval hfs hp (Z.comp (C 5⁻¹ * X)) (comp_scale_degree _ _ hZd) _ (by rw [shiftPoly, scalePoly_length, hll]) fun j hj => by
    rw [shiftPoly, scalePoly_getD, hgetD _ j hj, comp_C_mul_X_coeff, one_mul]]
  simp only [Go.ok_bind, List.length_map, List.length_range]
  rw [mapM_ok _ (fun i => (R.comp (C 5⁻¹ * X)).eval (ω ^ i)), Go.ok_bind]
  swap
  · intro i hi
    have hi' := List.mem_range.1 hi
    rw [hidx _ i hi', Go.ok_bind, hidx _ i hi', Go.ok_bind]
    simp only [eval_comp, eval_mul, eval_C, eval_X, Go.pure_eq]
    rw [mul_assoc, mul_inv_cancel₀ (hshift i), mul_one]
  rw [fft_pow hfs hp _ (hll _), inplace_coeff hfs hp (R.comp (C 5⁻¹ * X)) (comp_scale_degree _ _ hRd) _ (hll _) fun j hj => hgetD _ j hj]
  simp only [Go.ok_bind]
  rw [fft_pow hfs hp _ (by rw [unshiftPoly, scalePoly_length, hll]), inplace_eval hfs hp R hRd _ (by rw [unshiftPoly, scalePoly_length, hll]) fun j hj => by
    rw [unshiftPoly, scalePoly_getD, hgetD _ j hj, comp_C_mul_X_coeff, one_mul, mul_assoc, ← mul_pow, inv_mul_cancel₀ h5, one_pow, mul_one]]
  simp only [Go.ok_bind]
  rw [mapM_ok _ (fun _ => false), Go.ok_bind, if_neg (by simp)]
  · rfl
  · intro i hi
    have hi' := List.mem_range.1 hi
    cases hsi : samples.getD i none with
    | none => rfl
    | some x =>
      simp only [hidx _ i hi', Go.ok_bind]
      rw [hval i hi' x hsi]
      simp [Go.pure_eq]

/-- There is always a polynomial of degree below the number of present samples through them. -/
theorem exists_interpolant {ω : K} {p : ℕ} (hprim : IsPrimitiveRoot ω (2 ^ p)) (samples : List (Option K)) (hlen : samples.length = 2 ^ p) :
    ∃ R : K[X], R.degree < (2 ^ p - (missingIndices samples).length : ℕ) ∧ ∀ i < 2 ^ p, ∀ x, samples.getD i none = some x → R.eval (ω ^ i) = x := by
  classical
  set S := (Finset.range (2 ^ p)).filter fun i => samples.getD i none ≠ none with hS
  have hinj : Set.InjOn (fun i => ω ^ i) (S : Set ℕ) := by
    intro a ha b hb e
    have ha' := (Finset.mem_filter.1 (Finset.mem_coe.1 ha)).1
    have hb' := (Finset.mem_filter.1 (Finset.mem_coe.1 hb)).1
    exact hprim.pow_inj (Finset.mem_range.1 ha') (Finset.mem_range.1 hb') e
  have hcard : S.card = 2 ^ p - (missingIndices samples).length := by
    have h1 : (missingIndices samples).length = ((Finset.range (2 ^ p)).filter fun i => ¬ samples.getD i none ≠ none).card := by
      rw [← List.toFinset_card_of_nodup (l := missingIndices samples) (List.Nodup.filter _ List.nodup_range)]
      congr 1
      ext i
      rw [List.mem_toFinset, mem_missingIndices, Finset.mem_filter, Finset.mem_range, hlen, not_not]
    have h2 := Finset.card_filter_add_card_filter_not (s := Finset.range (2 ^ p)) (fun i => samples.getD i none ≠ none)
    rw [Finset.card_range] at h2
    rw [h1, hS]
    omega
  refine ⟨Lagrange.interpolate S (fun i => ω ^ i) (fun i => (samples.getD i none).getD 0), ?_, ?_⟩
  · rw [← hcard]
    exact Lagrange.degree_interpolate_lt _ hinj
  · intro i hi x hx
    have := Lagrange.eval_interpolate_at_node (fun i => (samples.getD i none).getD 0) hinj (i := i) (by
      rw [hS, Finset.mem_filter, Finset.mem_range]
      exact ⟨hi, by rw [hx]; simp⟩)
    rw [this, hx]
    rfl

/-! ## Missing sets that do not fit -/

theorem reduceLeaves_too_long {fs : FFTSettings K} {n : ℕ} (h : fs.maxWidth < n) (scratch : ℕ) (ps : List (List K)) : reduceLeaves fs scratch n ps = .error .panic := by
  rw [reduceLeaves]
  split
  · rfl
  split
  · rfl
  split
  · rfl
  simp only
  split
  · rfl
  split
  · rfl
  rw [padPoly]
  split
  · rfl
  · rw [Go.ok_bind, inplaceFFT_too_long (by simp; omega)]
    rfl

theorem reduceAll_panics {fs : FFTSettings K} {s : ℕ} {w : K} (hfs : fs.Ok s w) {ρ : ℕ → K} {ms : List ℕ} {p : ℕ} (hw : fs.maxWidth < 2 ^ p) {v : ℕ} (hv : nextPowOf2 v = 2 ^ p) : ∀ (fuel j m : ℕ) (out : List K) (lf : ℕ → ℕ),
    m ≤ fuel → 2 ≤ m → v ≤ m * 2 ^ (6 + 2 * j) → TreeInv ρ ms (2 ^ p) (2 ^ (6 + 2 * j)) (63 * 2 ^ (2 * j)) out m lf →
    reduceAll fs fuel (out, (List.range m).map fun i => (i * 2 ^ (6 + 2 * j), lf i)) = .error .panic
  | 0, j, m, out, lf, hm, h2, _, inv => by omega
  | fuel + 1, j, m, out, lf, hm, h2, hvm, inv => by
    rw [reduceAll]
    simp only [List.length_map, List.length_range]
    rw [if_pos (by omega)]
    have e64 : 2 ^ (6 + 2 * j) = 64 * 2 ^ (2 * j) := by rw [pow_add]; norm_num
    have hpos : 0 < 2 ^ (2 * j) := by positivity
    have eS : 4 * 2 ^ (6 + 2 * j) = 2 ^ (6 + 2 * (j + 1)) := by rw [show 6 + 2 * (j + 1) = 6 + 2 * j + 2 by ring, pow_add _ _ 2]; ring
    have eC : 4 * (63 * 2 ^ (2 * j)) = 63 * 2 ^ (2 * (j + 1)) := by rw [show 2 * (j + 1) = 2 * j + 2 by ring, pow_add _ _ 2]; ring
    by_cases h4 : m ≤ 4
    · have hr : reduceRound fs (out, (List.range m).map fun i => (i * 2 ^ (6 + 2 * j), lf i)) = .error .panic := by
        have hl0 : idx ((List.range m).map fun i => (i * 2 ^ (6 + 2 * j), lf i)) 0 = .ok (0, 63 * 2 ^ (2 * j) + 1) := by
          rw [idx_of_lt (by simp; omega)]
          simp [inv.full 0 (by omega)]
        unfold reduceRound
        simp only [hl0, Go.ok_bind, List.length_map, List.length_range]
        rw [nextPowOf2_eq (q := 6 + 2 * j) (by omega) (by omega), show (m + 3) / 4 = 1 by omega, show List.range 1 = [0] from rfl, List.foldlM_cons]
        have hle : 2 ^ p ≤ 4 * 2 ^ (6 + 2 * j) := by
          obtain ⟨k, hk1, hk2, hk3⟩ := nextPowOf2_spec v
          rw [hv] at hk1
          have : k = p := (Nat.pow_right_injective (le_refl 2) hk1).symm
          subst this
          rw [eS]
          refine Nat.pow_le_pow_right (by norm_num) (hk3 _ ?_)
          rw [← eS]
          calc v ≤ m * 2 ^ (6 + 2 * j) := hvm
            _ ≤ 4 * 2 ^ (6 + 2 * j) := Nat.mul_le_mul_right _ h4
        rw [reduceGroup]
        simp only [zero_mul, zero_add, List.length_map, List.length_range, inv.len]
        rw [min_eq_right hle, if_neg (by omega), if_pos (by omega), Nat.sub_zero, reduceLeaves_too_long hw]
        rfl
      rw [hr]
      rfl
    · rcases round_ok hfs inv (by omega) (by omega) (by omega) with ⟨out', lf', h3, h5⟩ | ⟨h3, -⟩
      · rw [h3, Go.ok_bind, eS]
        rw [eS, eC] at h5
        refine reduceAll_panics hfs hw hv fuel (j + 1) _ out' lf' (by omega) (by omega) ?_ h5
        rw [← eS, ← mul_assoc]
        exact hvm.trans (Nat.mul_le_mul_right _ (by omega))
      · rw [h3]
        rfl

/-- With settings for exactly the domain, more missing indices than 63/64 of it make the function panic. -/
theorem zeroPoly_panics {fs : FFTSettings K} {s : ℕ} {w : K} (hfs : fs.Ok s w) (hs : 6 ≤ s) (ms : List ℕ) (hbig : 63 * 2 ^ (s - 6) < ms.length) (hlt : ∀ v ∈ ms, v < 2 ^ s) :
    zeroPolyViaMultiplication fs ms (2 ^ s) = .error .panic := by
  have hpow : 2 ^ s = 64 * 2 ^ (s - 6) := by rw [show (64 : ℕ) = 2 ^ 6 by norm_num, ← pow_add]; congr 1; omega
  have hpos : 0 < 2 ^ (s - 6) := by positivity
  have hne : ms ≠ [] := by rintro rfl; simp at hbig
  have hsp : 0 < 2 ^ s := by positivity
  have hstride : fs.maxWidth / 2 ^ s = 1 := by rw [hfs.width, Nat.div_self (by positivity)]
  rw [zeroPolyViaMultiplication, if_neg (by omega), if_neg (by rw [hfs.width]; omega), isPowerOfTwo_pow]
  simp only [Bool.not_true, Bool.false_eq_true, if_false, if_neg hsp.ne', hstride]
  rw [if_neg (by omega)]
  set L := (ms.length + 62) / 63 with hL
  obtain ⟨q, hq, hq1, hq2⟩ := nextPowOf2_spec (L * 64)
  obtain ⟨out, b1, b2⟩ := build_ok (fs := fs) (ρ := fun v => w ^ v) (ms := ms) (stride := 1) (N := 2 ^ q) (fun v hv => by
    rw [hfs.exp_get (by have := hlt v hv; omega), mul_one]) hne hq1
  rw [hq, b1, Go.ok_bind]
  have hw : fs.maxWidth < 2 ^ q := by
    rw [hfs.width, hpow]
    omega
  have := reduceAll_panics hfs hw hq L 0 L out (fun _ => 64) le_rfl (by omega) le_rfl b2
  have a1' : reduceAll fs L (out, (List.range L).map fun i => (i * 64, 64)) = .error .panic := this
  rw [a1']
  rfl

end

end DyCAPS
