import Verif.Props.MultiProof
import Verif.Props.BitRev

/-!
# FK20: all proofs at once (C50, C69)

`n = 2^κ` is the number of coefficients, `t` the secret of the setup and `m` its size. `scale2Root p` has order `2^p`.
-/

set_option linter.unusedSectionVars false

namespace DyCAPS

open Polynomial

variable {G1 G2 GT : Type} [AddCommGroup G1] [Module Fr G1] [AddCommGroup G2] [Module Fr G2] [AddCommGroup GT] [Module Fr GT] [DecidableEq GT]

/-! ## Helpers -/

theorem proofSingle_div (pp : Pairing Fr G1 G2 GT) (t : Fr) (m : ℕ) (f : List Fr) (x : Fr) (hf : f ≠ []) (h : f.length ≤ m + 1) :
    computeProofSingle (newKZG pp t m) f x = .ok ((polyOf f /ₘ (X ^ 1 - C x)).eval t • pp.g1) := by
  rw [computeProofSingle_ok pp t m f x hf h]
  congr 2
  set Q := polyOf f /ₘ (X ^ 1 - C x) with hQ
  have hmon : (X ^ 1 - C x : Fr[X]).Monic := coset_monic x one_ne_zero
  have hdeg : Q.degree < (f.length : ℕ) := by
    by_cases hP : polyOf f = 0
    · rw [hQ, hP, zero_divByMonic, degree_zero]; exact WithBot.bot_lt_coe _
    · exact lt_of_le_of_lt (degree_divByMonic_le _ _) (degree_polyOf_lt f)
  have h1 := polyOf_map_coeff Q f.length hdeg
  have h2 := modByMonic_add_div (polyOf f) (X ^ 1 - C x)
  have h3 : (polyOf f %ₘ (X ^ 1 - C x)).degree ≤ 0 := by
    have := degree_modByMonic_lt (polyOf f) hmon
    rw [degree_X_pow_sub_C one_pos] at this
    exact Order.lt_succ_iff.1 (by exact_mod_cast this)
  have h4 := eq_C_of_degree_le_zero h3
  have h5 := polyOf_quot f ((List.range f.length).map Q.coeff) x _ (by
    rw [h1, ← h4]
    linear_combination -h2) t
  rw [← h5, ← eval_polyOf, h1]

theorem setup_idx (pp : Pairing Fr G1 G2 GT) (t : Fr) (m j : ℕ) (hj : j < m) : idx (newKZG pp t m).secretG1 j = .ok (t ^ j • pp.g1) := by
  rw [newKZG_eq, idx_of_lt (by simpa using hj)]
  simp

theorem isPow_pow (k : ℕ) : (!isPowerOfTwo (2 ^ k)) = false := by rw [isPowerOfTwo_pow]; rfl

theorem drop_zeros (f : List Fr) (r : ℕ) : ((f ++ List.replicate r 0).drop f.length).any (fun c => decide (c ≠ 0)) = false := by
  rw [List.drop_left]
  induction r with
  | zero => rfl
  | succ r ih => rw [List.replicate_succ, List.any_cons, ih]; simp

/-- The padded list before the last transform. -/
theorem padded_getD {G : Type} [AddCommGroup G] (H : ℕ → G) (k r : ℕ) (b : ℕ) (hb : b < k + r) :
    (((List.range k).map H).take k ++ List.replicate r 0).getD b 0 = if b < k then H b else 0 := by
  rw [List.take_of_length_le (by simp)]
  by_cases h : b < k
  · rw [if_pos h, List.getD_append _ _ _ _ (by simpa using h), getD_map_range _ _ _ _ h]
  · rw [if_neg h, List.getD_append_right _ _ _ _ (by simpa using h), List.getD_replicate]
    simp; omega

/-- The settings of `NewFK20SingleSettings`. -/
theorem newFK20Single_ok {s : ℕ} {fs : FFTSettings Fr} {w : Fr} (ok : fs.Ok s w) {κ : ℕ} (hκ : κ + 1 ≤ s) (pp : Pairing Fr G1 G2 GT) (t : Fr) (m : ℕ) (hm : 2 ^ κ ≤ m + 1) :
    newFK20Single fs (newKZG pp t m).secretG1 (2 ^ (κ + 1)) = .ok ((List.range (2 * 2 ^ κ)).map (dft (w ^ 2 ^ (s - (κ + 1))) (2 * 2 ^ κ) (fileEntry pp.g1 t (2 ^ κ) (2 ^ κ) 1 0))) := by
  have e : 2 ^ (κ + 1) = 2 * 2 ^ κ := by rw [pow_succ]; ring
  have hpos : 0 < 2 ^ κ := by positivity
  unfold newFK20Single
  rw [if_neg (by rw [ok.width]; exact not_lt.2 (Nat.pow_le_pow_right (by norm_num) hκ)), isPow_pow, if_neg (by simp), if_neg (by omega)]
  have hdiv : 2 ^ (κ + 1) / 2 = 2 ^ κ := by rw [e, Nat.mul_div_cancel_left _ (by norm_num)]
  simp only [hdiv]
  have := file_ok ok (κ := κ) (l := 1) (n := 2 ^ κ) (i := 0) hκ one_pos (mul_one _).symm pp.g1 t (newKZG pp t m).secretG1 fun j hj => setup_idx pp t m j (by omega)
  simpa [Nat.sub_sub] using this

/-- The settings of `NewFK20MultiSettings`, `l = 2^lam` points per proof. -/
theorem newFK20Multi_ok {s : ℕ} {fs : FFTSettings Fr} {w : Fr} (ok : fs.Ok s w) {κ lam : ℕ} (hκ : κ + lam + 1 ≤ s) (pp : Pairing Fr G1 G2 GT) (t : Fr) (m : ℕ) (hm : 2 ^ (κ + lam) ≤ m + 2 ^ lam) :
    ∃ files, newFK20Multi fs (newKZG pp t m).secretG1 (2 ^ (κ + lam + 1)) (2 ^ lam) = .ok files ∧
      ∀ i < 2 ^ lam, idx files i = .ok ((List.range (2 * 2 ^ κ)).map (dft (w ^ 2 ^ (s - (κ + 1))) (2 * 2 ^ κ) (fileEntry pp.g1 t (2 ^ κ * 2 ^ lam) (2 ^ κ) (2 ^ lam) i))) := by
  have e : 2 ^ (κ + lam + 1) = 2 * 2 ^ (κ + lam) := by rw [pow_succ]; ring
  have hpos : 0 < 2 ^ lam := by positivity
  have hle : 2 ^ lam ≤ 2 ^ (κ + lam) := Nat.pow_le_pow_right (by norm_num) (by omega)
  have hdiv : 2 ^ (κ + lam + 1) / 2 = 2 ^ (κ + lam) := by rw [e, Nat.mul_div_cancel_left _ (by norm_num)]
  have hk : 2 ^ (κ + lam) / 2 ^ lam = 2 ^ κ := by rw [pow_add, Nat.mul_div_cancel _ hpos]
  refine ⟨(List.range (2 ^ lam)).map fun i => (List.range (2 * 2 ^ κ)).map (dft (w ^ 2 ^ (s - (κ + 1))) (2 * 2 ^ κ) (fileEntry pp.g1 t (2 ^ κ * 2 ^ lam) (2 ^ κ) (2 ^ lam) i)), ?_, ?_⟩
  · unfold newFK20Multi
    rw [if_neg (by rw [ok.width]; exact not_lt.2 (Nat.pow_le_pow_right (by norm_num) hκ)), isPow_pow, if_neg (by simp), if_neg (by omega), if_neg (by omega), isPow_pow, if_neg (by simp), if_neg (by omega)]
    simp only [hdiv, hk]
    refine mapM_ok _ _ _ fun i hi => ?_
    rw [pow_add]
    exact file_ok ok (κ := κ) (by omega) (List.mem_range.1 hi) rfl pp.g1 t _ fun j hj => setup_idx pp t m j (by rw [← pow_add] at hj; omega)
  · intro i hi
    rw [idx_of_lt (by simpa using hi), List.getElem_map, List.getElem_range]

/-- Both halves of `FK20Single` up to the last transform. -/
theorem single_core {s : ℕ} {fs : FFTSettings Fr} {w : Fr} (ok : fs.Ok s w) {κ : ℕ} (h1 : 1 ≤ κ) (hκ : κ + 1 ≤ s) (pp : Pairing Fr G1 G2 GT) (t : Fr) (f : List Fr) (hf : f.length = 2 ^ κ) :
    (do let tc ← toeplitzCoeffsStep f
        let hx ← toeplitzPart2 fs tc ((List.range (2 * 2 ^ κ)).map (dft (w ^ 2 ^ (s - (κ + 1))) (2 * 2 ^ κ) (fileEntry pp.g1 t (2 ^ κ) (2 ^ κ) 1 0)))
        toeplitzPart3 fs hx : Go (List G1 × ℕ)) = .ok ((List.range (2 ^ κ)).map fun b => polyVal (f.drop (b + 1)) t • pp.g1, 2 * 2 ^ κ) := by
  have hk2 : 2 ≤ 2 ^ κ := by
    calc 2 = 2 ^ 1 := by norm_num
      _ ≤ 2 ^ κ := Nat.pow_le_pow_right (by norm_num) h1
  have hf1 : f.length = 2 ^ κ * 1 := by rw [hf, mul_one]
  rw [toeplitzCoeffsStep_eq, toeplitzCoeffs_ok f hk2 one_pos hf1, Go.ok_bind, part2_ok ok hκ, Go.ok_bind, part3_ok ok hκ]
  congr 2
  refine List.map_congr_left fun b hb => ?_
  have := cyc_files f pp.g1 t hk2 hf1 (List.mem_range.1 hb)
  rw [Finset.sum_range_one, hf, mul_one] at this
  exact this

/-! ## C50 -/

/-- `FK20Single` on `n ≥ 2` coefficients returns the `n` proofs of `ComputeProofSingle` at the `n`-th roots of unity. -/
theorem C50_single_partial {s : ℕ} {fs : FFTSettings Fr} (h : newFFTSettings s = some fs) {κ : ℕ} (h1 : 1 ≤ κ) (hκ : κ + 1 ≤ s) {ω : Fr} (hω : scale2Root κ = some ω) (pp : Pairing Fr G1 G2 GT) (t : Fr) (m : ℕ)
    (hm : 2 ^ κ ≤ m + 1) (f : List Fr) (hf : f.length = 2 ^ κ) :
    ∃ x proofs, newFK20Single fs (newKZG pp t m).secretG1 (2 ^ (κ + 1)) = .ok x ∧ fk20Single fs x f = .ok proofs ∧ proofs.length = 2 ^ κ ∧
      ∀ i < 2 ^ κ, computeProofSingle (newKZG pp t m) f (ω ^ i) = idx proofs i := by
  obtain ⟨hs, w, hw, ok⟩ := newFFTSettings_some h
  rw [scale2Root_sub hw (by omega)] at hω
  cases hω
  refine ⟨_, (List.range (2 ^ (κ))).map fun c => (polyOf f /ₘ (X ^ 1 - C ((w ^ 2 ^ (s - (κ))) ^ c))).eval t • pp.g1, newFK20Single_ok ok hκ pp t m hm, ?_, ?_⟩
  · unfold fk20Single
    have hc := single_core ok h1 hκ pp t f hf
    simp only [bind_assoc] at hc ⊢
    have e : ∀ (a : Go (List Fr)) (X : List G1), (a >>= fun tc => toeplitzPart2 fs tc X >>= fun hx => toeplitzPart3 fs hx >>= fun r => orPanic (fftG1 fs r.1 false)) =
        ((a >>= fun tc => toeplitzPart2 fs tc X >>= fun hx => toeplitzPart3 fs hx) >>= fun r => orPanic (fftG1 fs r.1 false)) := by
      intro a X; simp only [bind_assoc]
    refine (e _ _).trans ?_
    rw [hc, Go.ok_bind]
    exact final_ok ok (κ := κ) one_pos (r := κ) (by omega) le_rfl f (by rw [hf, mul_one]) pp.g1 t _ (by simp) fun b hb => by
      rw [getD_map_range _ _ _ _ hb, if_pos hb, mul_one]
  · refine ⟨by simp, fun i hi => ?_⟩
    rw [idx_of_lt (by simpa using hi), List.getElem_map, List.getElem_range]
    exact proofSingle_div pp t m f _ (by rintro rfl; exact absurd hf (Nat.ne_of_lt (by positivity))) (by omega)

/-- `FK20SingleDAOptimized` on `f` padded with zeros: the `2n` proofs at the `2n`-th roots of unity. -/
theorem C50_da_optimized_partial {s : ℕ} {fs : FFTSettings Fr} (h : newFFTSettings s = some fs) {κ : ℕ} (h1 : 1 ≤ κ) (hκ : κ + 1 ≤ s) {ω : Fr} (hω : scale2Root (κ + 1) = some ω) (pp : Pairing Fr G1 G2 GT) (t : Fr)
    (m : ℕ) (hm : 2 ^ κ ≤ m + 1) (f : List Fr) (hf : f.length = 2 ^ κ) :
    ∃ x proofs, newFK20Single fs (newKZG pp t m).secretG1 (2 ^ (κ + 1)) = .ok x ∧ fk20SingleDAOptimized fs x (f ++ List.replicate (2 ^ κ) 0) = .ok proofs ∧ proofs.length = 2 ^ (κ + 1) ∧
      ∀ i < 2 ^ (κ + 1), computeProofSingle (newKZG pp t m) f (ω ^ i) = idx proofs i := by
  obtain ⟨hs, w, hw, ok⟩ := newFFTSettings_some h
  rw [scale2Root_sub hw (by omega)] at hω
  cases hω
  have e2 : 2 ^ (κ + 1) = 2 * 2 ^ κ := by rw [pow_succ]; ring
  have hl : (f ++ List.replicate (2 ^ κ) (0 : Fr)).length = 2 ^ (κ + 1) := by rw [List.length_append, List.length_replicate, hf, e2]; ring
  have hdiv : 2 ^ (κ + 1) / 2 = 2 ^ κ := by rw [e2, Nat.mul_div_cancel_left _ (by norm_num)]
  refine ⟨_, (List.range (2 ^ (κ + 1))).map fun c => (polyOf f /ₘ (X ^ 1 - C ((w ^ 2 ^ (s - (κ + 1))) ^ c))).eval t • pp.g1, newFK20Single_ok ok hκ pp t m hm, ?_, ?_⟩
  · unfold fk20SingleDAOptimized
    simp only [hl, hdiv]
    have hz := drop_zeros f (2 ^ κ)
    rw [hf] at hz
    rw [if_neg (by rw [ok.width]; exact not_lt.2 (Nat.pow_le_pow_right (by norm_num) hκ)), isPow_pow, if_neg (by simp), hz, if_neg (by simp)]
    have ht : (f ++ List.replicate (2 ^ κ) (0 : Fr)).take (2 ^ κ) = f := by rw [← hf, List.take_left]
    rw [ht]
    have hc := single_core ok h1 hκ pp t f hf
    have e : ∀ (a : Go (List Fr)) (X : List G1) (F : List G1 × ℕ → Go (List G1)), (a >>= fun tc => toeplitzPart2 fs tc X >>= fun hx => toeplitzPart3 fs hx >>= F) =
        ((a >>= fun tc => toeplitzPart2 fs tc X >>= fun hx => toeplitzPart3 fs hx) >>= F) := by
      intro a X F; simp only [bind_assoc]
    refine (e _ _ _).trans ?_
    rw [hc, Go.ok_bind]
    simp only
    rw [if_neg (by omega)]
    exact final_ok ok (κ := κ) one_pos (r := κ + 1) hκ (by omega) f (by rw [hf, mul_one]) pp.g1 t _ (by simp; omega) fun b hb => by
      rw [padded_getD _ _ _ _ (by omega), mul_one]
  · refine ⟨by simp, fun i hi => ?_⟩
    rw [idx_of_lt (by simpa using hi), List.getElem_map, List.getElem_range]
    exact proofSingle_div pp t m f _ (by rintro rfl; exact absurd hf (Nat.ne_of_lt (by positivity))) (by omega)

/-- `DAUsingFK20`: the `2n` proofs at the `2n`-th roots of unity, in bit-reversed order. -/
theorem C50_da_partial {s : ℕ} {fs : FFTSettings Fr} (h : newFFTSettings s = some fs) {κ : ℕ} (h1 : 1 ≤ κ) (hκ : κ + 1 ≤ s) {ω : Fr} (hω : scale2Root (κ + 1) = some ω) (pp : Pairing Fr G1 G2 GT) (t : Fr)
    (m : ℕ) (hm : 2 ^ κ ≤ m + 1) (f : List Fr) (hf : f.length = 2 ^ κ) :
    ∃ x proofs, newFK20Single fs (newKZG pp t m).secretG1 (2 ^ (κ + 1)) = .ok x ∧ daUsingFK20 fs x f = .ok proofs ∧ proofs.length = 2 ^ (κ + 1) ∧
      ∀ i j, i < 2 ^ (κ + 1) → j < 2 ^ (κ + 1) → (∀ b < κ + 1, j.testBit b = i.testBit (κ + 1 - 1 - b)) → computeProofSingle (newKZG pp t m) f (ω ^ i) = idx proofs j := by
  obtain ⟨hs, w, hw, ok⟩ := newFFTSettings_some h
  obtain ⟨x, proofs, p1, p2, p3, p4⟩ := C50_da_optimized_partial h h1 hκ hω pp t m hm f hf
  obtain ⟨out, r1, r2, r3, -⟩ := C44_reverseBitOrder (k := κ + 1) (by omega) proofs p3
  refine ⟨x, out, p1, ?_, r2, ?_⟩
  · unfold daUsingFK20
    have hwid : fs.maxWidth / 2 = 2 ^ (s - 1) := by
      rw [ok.width]
      conv_lhs => rw [show s = (s - 1) + 1 by omega, pow_succ]
      rw [Nat.mul_div_cancel _ (by norm_num)]
    simp only [hf]
    rw [if_neg (by rw [hwid]; exact not_lt.2 (Nat.pow_le_pow_right (by norm_num) (by omega))), isPow_pow, if_neg (by simp), p2, Go.ok_bind, r1]
  · intro i j hi hj hb
    rw [p4 i hi, idx_of_lt (by omega), idx_of_lt (by omega)]
    have := r3 i j hi hj hb
    rw [List.getElem?_eq_getElem (by omega), List.getElem?_eq_getElem (by omega)] at this
    rw [Option.some.inj this]

/-- **C50, boundary.** One coefficient: all three functions panic, whatever the settings. -/
theorem C50_one_panics (fs : FFTSettings Fr) (x : List G1) (c : Fr) :
    fk20Single fs x [c] = .error .panic ∧ fk20SingleDAOptimized fs x ([c] ++ [0]) = .error .panic ∧ daUsingFK20 fs x [c] = .error .panic := by
  have h1 : toeplitzCoeffsStep [c] = .error .panic := rfl
  have h2 : fk20SingleDAOptimized fs x ([c] ++ [0]) = .error .panic := by
    unfold fk20SingleDAOptimized
    simp only [List.cons_append, List.nil_append, List.length_cons, List.length_nil]
    split
    · rfl
    · split
      · rfl
      · simp [h1, Go.error_bind]
  refine ⟨by unfold fk20Single; rw [h1]; rfl, h2, ?_⟩
  unfold daUsingFK20
  simp only [List.length_singleton]
  split
  · rfl
  · split
    · rfl
    · have h3 := h2
      simp only [List.replicate_one] at h3 ⊢
      rw [h3]
      rfl

/-- A polynomial of another length than the settings were made for: panic. -/
theorem C50_length_panics (fs : FFTSettings Fr) (x : List G1) (f : List Fr) (h : 2 * f.length ≠ x.length) : fk20Single fs x f = .error .panic := by
  unfold fk20Single toeplitzCoeffsStep
  by_cases h0 : f.length * 2 = 0
  · simp only [if_pos h0]; rfl
  · simp only [if_neg h0]
    rw [idx_of_lt (by omega), Go.ok_bind]
    by_cases h1 : f.length * 2 ≤ f.length + 1
    · rw [if_pos h1]; rfl
    · rw [if_neg h1, mapM_ok _ (fun m => f.getD (1 + m) 0)]
      · simp only [Go.ok_bind, Go.pure_eq]
        rw [toeplitzPart2, if_pos]
        · rfl
        · simp; omega
      · intro a ha
        have := List.mem_range.1 ha
        rw [idx_of_lt (by omega), List.getD_eq_getElem _ _ (by omega)]

/-- Eight coefficients: `FK20Single` gives the eight proofs, for an arbitrary secret. -/
example (t : Fr) : ∃ fs x proofs, newFFTSettings 4 = some fs ∧ newFK20Single fs (newKZG (Pairing.dlog Fr) t 16).secretG1 16 = .ok x ∧ fk20Single fs x [3, 1, 4, 1, 5, 9, 2, 6] = .ok proofs ∧ proofs.length = 8 := by
  obtain ⟨fs, w, h1, h2, ok⟩ := newFFTSettings_ok (s := 4) (by norm_num)
  obtain ⟨x, proofs, h3, h4, h5, -⟩ := C50_single_partial h1 (κ := 3) (by norm_num) (by norm_num) (scale2Root_sub h2 (by norm_num)) (Pairing.dlog Fr) t 16 (by norm_num) [3, 1, 4, 1, 5, 9, 2, 6] rfl
  exact ⟨fs, x, proofs, h1, h3, h4, h5⟩

/-! ## C69 -/

/-- `FK20MultiDAOptimized` with `k = 2^κ ≥ 2` chunks of `l = 2^lam` coefficients: `2k` proofs, and proof `c` is accepted for the values on the coset of `ω^c`, where `ω` has order `2n`. -/
theorem C69_multi_da_optimized_partial {s : ℕ} {fs : FFTSettings Fr} (h : newFFTSettings s = some fs) {κ lam : ℕ} (h1 : 1 ≤ κ) (hκ : κ + lam + 1 ≤ s) {ω ρ : Fr} (hω : scale2Root (κ + lam + 1) = some ω)
    (hρ : scale2Root lam = some ρ) (pp : Pairing Fr G1 G2 GT) (t : Fr) (m : ℕ) (hm : 2 ^ (κ + lam) ≤ m) (f : List Fr) (hf : f.length = 2 ^ (κ + lam)) :
    ∃ files proofs C', newFK20Multi fs (newKZG pp t m).secretG1 (2 ^ (κ + lam + 1)) (2 ^ lam) = .ok files ∧ commitToPoly (newKZG pp t m) f = .ok C' ∧
      fk20MultiDAOptimized fs (2 ^ lam) files (f ++ List.replicate (2 ^ (κ + lam)) 0) = .ok proofs ∧ proofs.length = 2 ^ (κ + 1) ∧
      ∀ c < 2 ^ (κ + 1), ∃ W, idx proofs c = .ok W ∧ checkProofMulti pp fs (newKZG pp t m) C' W (ω ^ c) ((List.range (2 ^ lam)).map fun i => polyVal f (ω ^ c * ρ ^ i)) = .ok true := by
  obtain ⟨hs, w, hw, ok⟩ := newFFTSettings_some h
  rw [scale2Root_sub hw (by omega)] at hω hρ
  cases hω
  cases hρ
  have hpos : 0 < 2 ^ lam := by positivity
  have e2 : 2 ^ (κ + lam + 1) = 2 * 2 ^ (κ + lam) := by rw [pow_succ]; ring
  have e3 : 2 ^ (κ + 1) = 2 * 2 ^ κ := by rw [pow_succ]; ring
  have hl : (f ++ List.replicate (2 ^ (κ + lam)) (0 : Fr)).length = 2 ^ (κ + lam + 1) := by rw [List.length_append, List.length_replicate, hf, e2]; ring
  have hdiv : 2 ^ (κ + lam + 1) / 2 = 2 ^ (κ + lam) := by rw [e2, Nat.mul_div_cancel_left _ (by norm_num)]
  have hk : 2 ^ (κ + lam) / 2 ^ lam = 2 ^ κ := by rw [pow_add, Nat.mul_div_cancel _ hpos]
  have hk2 : 2 ≤ 2 ^ κ := by
    calc 2 = 2 ^ 1 := by norm_num
      _ ≤ 2 ^ κ := Nat.pow_le_pow_right (by norm_num) h1
  have hfl : f.length = 2 ^ κ * 2 ^ lam := by rw [hf, pow_add]
  obtain ⟨files, f1, f2⟩ := newFK20Multi_ok ok hκ pp t m (hm.trans (Nat.le_add_right _ _))
  refine ⟨files, (List.range (2 ^ (κ + 1))).map fun c => (polyOf f /ₘ (X ^ 2 ^ lam - C ((w ^ 2 ^ (s - (κ + 1))) ^ c))).eval t • pp.g1, polyVal f t • pp.g1, f1, commitToPoly_ok pp t m f (by omega), ?_, by simp, ?_⟩
  · unfold fk20MultiDAOptimized
    have hz := drop_zeros f (2 ^ (κ + lam))
    rw [hf] at hz
    simp only [hl, hdiv]
    rw [if_neg (by rw [ok.width]; exact not_lt.2 (Nat.pow_le_pow_right (by norm_num) hκ)), hz, if_neg (by simp), if_neg (by omega)]
    have ht : (f ++ List.replicate (2 ^ (κ + lam)) (0 : Fr)).take (2 ^ (κ + lam)) = f := by rw [← hf, List.take_left]
    rw [ht, hk, mul_comm (2 ^ κ) 2, fold_ok ok h1 (by omega) f hfl pp.g1 t files (by rw [hfl]; exact f2) _ le_rfl, Go.ok_bind, part3_ok ok (by omega), Go.ok_bind]
    simp only
    rw [if_neg (by omega)]
    exact final_ok ok (κ := κ) hpos (r := κ + 1) (by omega) (by omega) f hfl pp.g1 t _ (by simp; omega) fun b hb => by
      rw [padded_getD _ _ _ _ (by omega)]
      by_cases hb' : b < 2 ^ κ
      · rw [if_pos hb', if_pos hb', cyc_files f pp.g1 t hk2 hfl hb']
      · rw [if_neg hb', if_neg hb']
  · intro c hc
    refine ⟨(polyOf f /ₘ (X ^ 2 ^ lam - C ((w ^ 2 ^ (s - (κ + 1))) ^ c))).eval t • pp.g1, ?_, ?_⟩
    · rw [idx_of_lt (by simpa using hc), List.getElem_map, List.getElem_range]
    · have hlm : 2 ^ lam < m := by
        have : 2 ^ (lam + 1) ≤ 2 ^ (κ + lam) := Nat.pow_le_pow_right (by norm_num) (by omega)
        rw [pow_succ] at this
        omega
      rw [check_values ok (p := lam) (by omega) pp t m hlm f _ _ (pow_ne_zero _ (pow_ne_zero _ (ok.prim.ne_zero (by positivity)))), decide_eq_true]
      right
      have e4 : ((w ^ 2 ^ (s - (κ + lam + 1))) ^ c) ^ 2 ^ lam = (w ^ 2 ^ (s - (κ + 1))) ^ c := by
        rw [← pow_mul, mul_comm c, pow_mul, ← pow_mul w, ← pow_add, show s - (κ + lam + 1) + lam = s - (κ + 1) by omega]
      rw [e4]

/-- With chunks of one value `FK20Multi` does work: the `n` proofs it returns are those of the single prover, at the `n`-th roots of unity. -/
theorem C69_multi_one_partial {s : ℕ} {fs : FFTSettings Fr} (h : newFFTSettings s = some fs) {κ : ℕ} (h1 : 1 ≤ κ) (hκ : κ + 1 ≤ s) {ω : Fr} (hω : scale2Root κ = some ω) (pp : Pairing Fr G1 G2 GT) (t : Fr) (m : ℕ)
    (hm : 2 ^ κ ≤ m) (f : List Fr) (hf : f.length = 2 ^ κ) :
    ∃ files proofs, newFK20Multi fs (newKZG pp t m).secretG1 (2 ^ (κ + 1)) 1 = .ok files ∧ fk20Multi fs 1 files f = .ok proofs ∧ proofs.length = 2 ^ κ ∧
      ∀ i < 2 ^ κ, computeProofSingle (newKZG pp t m) f (ω ^ i) = idx proofs i := by
  obtain ⟨hs, w, hw, ok⟩ := newFFTSettings_some h
  rw [scale2Root_sub hw (by omega)] at hω
  cases hω
  have e2 : 2 ^ (κ + 1) = 2 * 2 ^ κ := by rw [pow_succ]; ring
  have hk2 : 2 ≤ 2 ^ κ := by
    calc 2 = 2 ^ 1 := by norm_num
      _ ≤ 2 ^ κ := Nat.pow_le_pow_right (by norm_num) h1
  have hfl : f.length = 2 ^ κ * 1 := by rw [hf, mul_one]
  obtain ⟨files, f1, f2⟩ := newFK20Multi_ok (lam := 0) ok hκ pp t m (hm.trans (Nat.le_add_right _ _))
  refine ⟨files, (List.range (2 ^ κ)).map fun c => (polyOf f /ₘ (X ^ 1 - C ((w ^ 2 ^ (s - κ)) ^ c))).eval t • pp.g1, f1, ?_, by simp, ?_⟩
  · unfold fk20Multi
    simp only [hf]
    rw [if_neg (by rw [ok.width, mul_comm, ← e2]; exact not_lt.2 (Nat.pow_le_pow_right (by norm_num) hκ))]
    rw [mul_comm (2 ^ κ) 2, fold_ok ok h1 (by omega) f hfl pp.g1 t files (by rw [hfl]; exact f2) _ le_rfl, Go.ok_bind, part3_ok ok (by omega), Go.ok_bind]
    simp only
    exact final_ok ok (κ := κ) one_pos (r := κ) (by omega) le_rfl f hfl pp.g1 t _ (by simp) fun b hb => by
      rw [getD_map_range _ _ _ _ hb, if_pos hb, cyc_files f pp.g1 t hk2 hfl hb]
  · intro i hi
    rw [idx_of_lt (by simpa using hi), List.getElem_map, List.getElem_range]
    exact proofSingle_div pp t m f _ (by rintro rfl; exact absurd hf (Nat.ne_of_lt (by positivity))) (by omega)

/-- `DAUsingFK20Multi`: the same proofs in bit-reversed order. -/
theorem C69_multi_da_partial {s : ℕ} {fs : FFTSettings Fr} (h : newFFTSettings s = some fs) {κ lam : ℕ} (h1 : 1 ≤ κ) (hκ : κ + lam + 1 ≤ s) {ω ρ : Fr} (hω : scale2Root (κ + lam + 1) = some ω)
    (hρ : scale2Root lam = some ρ) (pp : Pairing Fr G1 G2 GT) (t : Fr) (m : ℕ) (hm : 2 ^ (κ + lam) ≤ m) (f : List Fr) (hf : f.length = 2 ^ (κ + lam)) :
    ∃ files proofs C', newFK20Multi fs (newKZG pp t m).secretG1 (2 ^ (κ + lam + 1)) (2 ^ lam) = .ok files ∧ commitToPoly (newKZG pp t m) f = .ok C' ∧
      daUsingFK20Multi fs (2 ^ lam) files f = .ok proofs ∧ proofs.length = 2 ^ (κ + 1) ∧
      ∀ c j, c < 2 ^ (κ + 1) → j < 2 ^ (κ + 1) → (∀ b < κ + 1, j.testBit b = c.testBit (κ + 1 - 1 - b)) →
        ∃ W, idx proofs j = .ok W ∧ checkProofMulti pp fs (newKZG pp t m) C' W (ω ^ c) ((List.range (2 ^ lam)).map fun i => polyVal f (ω ^ c * ρ ^ i)) = .ok true := by
  obtain ⟨hs, w, hw, ok⟩ := newFFTSettings_some h
  obtain ⟨files, proofs, C', p1, p2, p3, p4, p5⟩ := C69_multi_da_optimized_partial h h1 hκ hω hρ pp t m hm f hf
  obtain ⟨out, r1, r2, r3, -⟩ := C44_reverseBitOrder (k := κ + 1) (by omega) proofs p4
  refine ⟨files, out, C', p1, p2, ?_, r2, ?_⟩
  · unfold daUsingFK20Multi
    have hwid : fs.maxWidth / 2 = 2 ^ (s - 1) := by
      rw [ok.width]
      conv_lhs => rw [show s = (s - 1) + 1 by omega, pow_succ]
      rw [Nat.mul_div_cancel _ (by norm_num)]
    simp only [hf]
    rw [if_neg (by rw [hwid]; exact not_lt.2 (Nat.pow_le_pow_right (by norm_num) (by omega))), isPow_pow, if_neg (by simp), p3, Go.ok_bind, r1]
  · intro c j hc hj hb
    obtain ⟨W, q1, q2⟩ := p5 c hc
    refine ⟨W, ?_, q2⟩
    rw [← q1, idx_of_lt (by omega), idx_of_lt (by omega)]
    have := r3 c j hc hj hb
    rw [List.getElem?_eq_getElem (by omega), List.getElem?_eq_getElem (by omega)] at this
    rw [Option.some.inj this]

theorem mapM_panics {α β : Type} (g : α → Go β) : ∀ (l : List α), (∀ a ∈ l, g a = .error .panic ∨ ∃ b, g a = .ok b) → (∃ a ∈ l, g a = .error .panic) → l.mapM g = .error .panic
  | [], _, h => by simp at h
  | a :: l, hall, h => by
    rw [List.mapM_cons]
    rcases hall a (by simp) with e | ⟨b, e⟩
    · rw [e]; rfl
    · rw [e, Go.ok_bind, mapM_panics g l (fun a ha => hall a (by simp [ha]))]
      · rfl
      · obtain ⟨a', ha', e'⟩ := h
        rcases List.mem_cons.1 ha' with rfl | hm
        · rw [e] at e'; cases e'
        · exact ⟨a', hm, e'⟩

theorem strided_cases (f : List Fr) (l : ℕ) (hl : 0 < l) : toeplitzCoeffsStepStrided f 0 l = .error .panic ∨ ∃ tc, toeplitzCoeffsStepStrided f 0 l = .ok tc ∧ tc.length = f.length / l * 2 := by
  unfold toeplitzCoeffsStepStrided
  simp only [if_neg hl.ne']
  by_cases h1 : f.length / l * 2 = 0 ∨ f.length < 0 + 1
  · left; rw [if_pos h1]
  rw [if_neg h1, idx_of_lt (by omega), Go.ok_bind]
  by_cases h2 : f.length / l * 2 ≤ f.length / l + 1
  · left; rw [if_pos h2]
  right
  rw [if_neg h2, mapM_ok _ (fun m => f.getD (2 * l - 0 - 1 + m * l) 0), Go.ok_bind, Go.pure_eq]
  · refine ⟨_, rfl, ?_⟩
    simp only [List.length_cons, List.length_append, List.length_replicate, List.length_map, List.length_range]
    omega
  · intro a ha
    have ha' := List.mem_range.1 ha
    have h3 : (a + 2) * l ≤ f.length / l * l := Nat.mul_le_mul_right _ (by omega)
    have h4 := Nat.div_mul_le_self f.length l
    rw [Nat.add_mul] at h3
    rw [idx_of_lt (by omega), List.getD_eq_getElem _ _ (by omega)]

/-- **C69, refuted.** `FK20Multi` panics on every polynomial as soon as the chunks have more than one coefficient: it adds `2n` entries of files that have only `2k`. -/
theorem C69_multi_panics {s : ℕ} {fs : FFTSettings Fr} (h : newFFTSettings s = some fs) {κ lam : ℕ} (hlam : 1 ≤ lam) (hκ : κ + lam + 1 ≤ s) (pp : Pairing Fr G1 G2 GT) (t : Fr) (m : ℕ) (hm : 2 ^ (κ + lam) ≤ m) (f : List Fr) :
    ∃ files, newFK20Multi fs (newKZG pp t m).secretG1 (2 ^ (κ + lam + 1)) (2 ^ lam) = .ok files ∧ fk20Multi fs (2 ^ lam) files f = .error .panic := by
  obtain ⟨hs, w, hw, ok⟩ := newFFTSettings_some h
  obtain ⟨files, f1, f2⟩ := newFK20Multi_ok ok hκ pp t m (hm.trans (Nat.le_add_right _ _))
  refine ⟨files, f1, ?_⟩
  have hl2 : 2 ≤ 2 ^ lam := by
    calc 2 = 2 ^ 1 := by norm_num
      _ ≤ 2 ^ lam := Nat.pow_le_pow_right (by norm_num) hlam
  have hk1 : 0 < 2 ^ κ := by positivity
  unfold fk20Multi
  simp only
  split
  · rfl
  obtain ⟨r, hr⟩ : ∃ r, 2 ^ lam = r + 1 := ⟨2 ^ lam - 1, by omega⟩
  have hstep : fk20MultiStep fs (2 ^ lam) files f (f.length * 2) (List.replicate (f.length * 2) 0) 0 = .error .panic := by
    unfold fk20MultiStep
    rcases strided_cases f (2 ^ lam) (by omega) with e | ⟨tc, e, hlen⟩
    · rw [e]; rfl
    · rw [e, Go.ok_bind, f2 0 (by omega), Go.ok_bind]
      by_cases hk : tc.length = 2 * 2 ^ κ
      · have htc : tc = (List.range (2 * 2 ^ κ)).map fun j => tc.getD j 0 := (map_range_getD tc _ 0 hk).symm
        rw [htc, part2_ok ok (by omega), Go.ok_bind]
        have hfl : f.length / 2 ^ lam = 2 ^ κ := by omega
        have h3 := Nat.div_mul_le_self f.length (2 ^ lam)
        rw [hfl] at h3
        have h4 : 2 ^ κ * 2 ≤ 2 ^ κ * 2 ^ lam := Nat.mul_le_mul_left _ hl2
        refine mapM_panics _ _ ?_ ⟨2 * 2 ^ κ, List.mem_range.2 (by omega), ?_⟩
        · intro j hj
          have hj' := List.mem_range.1 hj
          rw [idx_of_lt (by simpa using hj'), Go.ok_bind]
          by_cases hj2 : j < 2 * 2 ^ κ
          · right
            rw [idx_of_lt (by simpa using hj2)]
            exact ⟨_, rfl⟩
          · left
            rw [idx_of_ge (by simpa using hj2)]
            rfl
        · rw [idx_of_lt (by simp; omega), Go.ok_bind, idx_of_ge (by simp)]
          rfl
      · rw [toeplitzPart2, if_pos (by simpa using hk)]
        rfl
  rw [hr, List.range_succ_eq_map, List.foldlM_cons, ← hr, hstep]
  rfl

/-- **C69, refuted.** A single chunk (`chunkLen = n`) makes both functions panic: the code writes entry `k+1 = 2` of a list of two. -/
theorem C69_one_chunk_panics (fs : FFTSettings Fr) (files : List (List G1)) (f : List Fr) (hf : f ≠ []) :
    fk20Multi fs f.length files f = .error .panic ∧ fk20MultiDAOptimized fs f.length files (f ++ List.replicate f.length 0) = .error .panic := by
  obtain ⟨r, hr⟩ : ∃ r, f.length = r + 1 := ⟨f.length - 1, by have := List.length_pos_iff.2 hf; omega⟩
  have hc : toeplitzCoeffsStepStrided f 0 f.length = .error .panic := by
    unfold toeplitzCoeffsStepStrided
    simp only [if_neg (show f.length ≠ 0 by omega), Nat.div_self (show 0 < f.length by omega)]
    rw [if_neg (by omega), idx_of_lt (by omega), Go.ok_bind, if_pos (by norm_num)]
  have hstep : ∀ n2 acc, fk20MultiStep fs f.length files f n2 acc 0 = .error .panic := by
    intro n2 acc
    unfold fk20MultiStep
    rw [hc]
    rfl
  have hfold : ∀ n2 acc, (List.range f.length).foldlM (fk20MultiStep fs f.length files f n2) acc = .error .panic := by
    intro n2 acc
    conv_lhs => rw [show List.range f.length = 0 :: (List.range r).map Nat.succ by rw [hr, List.range_succ_eq_map]]
    rw [List.foldlM_cons, hstep]
    rfl
  constructor
  · unfold fk20Multi
    simp only
    split
    · rfl
    · rw [hfold]; rfl
  · unfold fk20MultiDAOptimized
    have hd : (f ++ List.replicate f.length (0 : Fr)).length / 2 = f.length := by rw [List.length_append, List.length_replicate]; omega
    simp only [hd, List.take_left]
    split
    · rfl
    · split
      · rfl
      · split
        · rfl
        · rw [hfold]; rfl

/-- Four chunks of two coefficients, settings of width 16. -/
example (t : Fr) : ∃ fs files proofs, newFFTSettings 4 = some fs ∧ newFK20Multi fs (newKZG (Pairing.dlog Fr) t 16).secretG1 16 2 = .ok files ∧
    daUsingFK20Multi fs 2 files [3, 1, 4, 1, 5, 9, 2, 6] = .ok proofs ∧ proofs.length = 8 ∧ fk20Multi fs 2 files [3, 1, 4, 1, 5, 9, 2, 6] = .error .panic := by
  obtain ⟨fs, w, h1, h2, ok⟩ := newFFTSettings_ok (s := 4) (by norm_num)
  obtain ⟨files, proofs, C', h3, h4, h5, h6, -⟩ := C69_multi_da_partial h1 (κ := 2) (lam := 1) (by norm_num) (by norm_num) (scale2Root_sub h2 (by norm_num)) (scale2Root_sub h2 (by norm_num)) (Pairing.dlog Fr) t 16
    (by norm_num) [3, 1, 4, 1, 5, 9, 2, 6] rfl
  obtain ⟨files', h7, h8⟩ := C69_multi_panics h1 (κ := 2) (lam := 1) (by norm_num) (by norm_num) (Pairing.dlog Fr) t 16 (by norm_num) [3, 1, 4, 1, 5, 9, 2, 6]
  have : files' = files := Except.ok.inj (h7.symm.trans h3)
  rw [this] at h8
  exact ⟨fs, files, proofs, h1, h3, h5, h6, h8⟩

/-- Chunks of one value: `FK20Multi` gives the eight proofs. -/
example (t : Fr) : ∃ fs files proofs, newFFTSettings 4 = some fs ∧ newFK20Multi fs (newKZG (Pairing.dlog Fr) t 16).secretG1 16 1 = .ok files ∧ fk20Multi fs 1 files [3, 1, 4, 1, 5, 9, 2, 6] = .ok proofs ∧ proofs.length = 8 := by
  obtain ⟨fs, w, h1, h2, ok⟩ := newFFTSettings_ok (s := 4) (by norm_num)
  obtain ⟨files, proofs, h3, h4, h5, -⟩ := C69_multi_one_partial h1 (κ := 3) (by norm_num) (by norm_num) (scale2Root_sub h2 (by norm_num)) (Pairing.dlog Fr) t 16 (by norm_num) [3, 1, 4, 1, 5, 9, 2, 6] rfl
  exact ⟨fs, files, proofs, h1, h3, h4, h5⟩

/-- Eight coefficients, settings of width 16: the 16 proofs in both orders; with one coefficient all functions panic. -/
example (t : Fr) : ∃ fs x proofs proofs', newFFTSettings 4 = some fs ∧ newFK20Single fs (newKZG (Pairing.dlog Fr) t 16).secretG1 16 = .ok x ∧
    fk20SingleDAOptimized fs x (([3, 1, 4, 1, 5, 9, 2, 6] : List Fr) ++ List.replicate 8 0) = .ok proofs ∧ proofs.length = 16 ∧ daUsingFK20 fs x [3, 1, 4, 1, 5, 9, 2, 6] = .ok proofs' ∧ proofs'.length = 16 ∧
    daUsingFK20 fs x [3] = .error .panic := by
  obtain ⟨fs, w, h1, h2, ok⟩ := newFFTSettings_ok (s := 4) (by norm_num)
  obtain ⟨x, proofs, h3, h4, h5, -⟩ := C50_da_optimized_partial h1 (κ := 3) (by norm_num) (by norm_num) (scale2Root_sub h2 (by norm_num)) (Pairing.dlog Fr) t 16 (by norm_num) [3, 1, 4, 1, 5, 9, 2, 6] rfl
  obtain ⟨x', proofs', k3, k4, k5, -⟩ := C50_da_partial h1 (κ := 3) (by norm_num) (by norm_num) (scale2Root_sub h2 (by norm_num)) (Pairing.dlog Fr) t 16 (by norm_num) [3, 1, 4, 1, 5, 9, 2, 6] rfl
  have : x' = x := Except.ok.inj (k3.symm.trans h3)
  rw [this] at k4
  exact ⟨fs, x, proofs, proofs', h1, h3, h4, h5, k4, k5, (C50_one_panics fs x 3).2.2⟩

/-- Four chunks of two coefficients: eight proofs, and proof 5 is accepted for the two values on its coset. -/
example (t : Fr) : ∃ fs files proofs C' W, ∃ ω : Fr, newFFTSettings 4 = some fs ∧ newFK20Multi fs (newKZG (Pairing.dlog Fr) t 16).secretG1 16 2 = .ok files ∧
    commitToPoly (newKZG (Pairing.dlog Fr) t 16) ([3, 1, 4, 1, 5, 9, 2, 6] : List Fr) = .ok C' ∧ fk20MultiDAOptimized fs 2 files (([3, 1, 4, 1, 5, 9, 2, 6] : List Fr) ++ List.replicate 8 0) = .ok proofs ∧
    proofs.length = 8 ∧ scale2Root 4 = some ω ∧ idx proofs 5 = .ok W ∧ ∃ ys : List Fr, ys.length = 2 ∧ checkProofMulti (Pairing.dlog Fr) fs (newKZG (Pairing.dlog Fr) t 16) C' W (ω ^ 5) ys = .ok true := by
  obtain ⟨fs, w, h1, h2, ok⟩ := newFFTSettings_ok (s := 4) (by norm_num)
  obtain ⟨files, proofs, C', h3, h4, h5, h6, h7⟩ := C69_multi_da_optimized_partial h1 (κ := 2) (lam := 1) (by norm_num) (by norm_num) (scale2Root_sub h2 (by norm_num)) (scale2Root_sub h2 (by norm_num))
    (Pairing.dlog Fr) t 16 (by norm_num) [3, 1, 4, 1, 5, 9, 2, 6] rfl
  obtain ⟨W, h8, h9⟩ := h7 5 (by norm_num)
  refine ⟨fs, files, proofs, C', W, _, h1, h3, h4, h5, h6, scale2Root_sub h2 le_rfl, h8, _, ?_, h9⟩
  rw [List.length_map, List.length_range]
  rfl

end DyCAPS
