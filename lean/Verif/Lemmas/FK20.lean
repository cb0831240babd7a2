import Verif.Lemmas.MultiProof
import Verif.Lemmas.Interp

/-! Lemmas about the FK20 algorithms. -/

namespace DyCAPS

open Finset Polynomial

section
variable {K G : Type} [Field K] [AddCommGroup G] [Module K G]

/-! ## Cyclic convolution -/

/-- Cyclic convolution of length `N`. -/
def cyc (N : ℕ) (t : ℕ → K) (x : ℕ → G) (b : ℕ) : G := ∑ a ∈ range N, t ((b + N - a) % N) • x a

theorem conv_dft {ζ : K} {N : ℕ} (hN : 0 < N) (hζ : ζ ^ N = 1) (t : ℕ → K) (x : ℕ → G) (i : ℕ) : (dft ζ N t i : K) • dft ζ N x i = dft ζ N (cyc N t x) i := by
  unfold dft cyc
  rw [Finset.smul_sum]
  simp only [Finset.smul_sum]
  rw [Finset.sum_comm]
  refine Finset.sum_congr rfl fun a ha => ?_
  have ha' := Finset.mem_range.1 ha
  rw [smul_smul, Finset.sum_mul, Finset.sum_smul]
  refine (Finset.sum_nbij' (fun b => (b + N - a) % N) (fun c => (c + a) % N) ?_ ?_ ?_ ?_ ?_).symm
  · intro b _; exact Finset.mem_range.2 (Nat.mod_lt _ hN)
  · intro c _; exact Finset.mem_range.2 (Nat.mod_lt _ hN)
  · intro b hb
    have hb' := Finset.mem_range.1 hb
    rw [Nat.mod_add_mod, Nat.sub_add_cancel (by omega), Nat.add_mod_right, Nat.mod_eq_of_lt hb']
  · intro c hc
    have hc' := Finset.mem_range.1 hc
    by_cases h : c + a < N
    · rw [Nat.mod_eq_of_lt h, show c + a + N - a = c + N by omega, Nat.add_mod_right, Nat.mod_eq_of_lt hc']
    · have h2 : (c + a) % N = c + a - N := by rw [Nat.mod_eq_sub_mod (by omega), Nat.mod_eq_of_lt (by omega)]
      rw [h2, show c + a - N + N - a = c by omega, Nat.mod_eq_of_lt hc']
  · intro b hb
    have hb' := Finset.mem_range.1 hb
    rw [smul_smul, smul_eq_mul]
    congr 1
    have e : ∀ c, ζ ^ (i * (c % N)) = ζ ^ (i * c) := by
      intro c
      conv_rhs => rw [← Nat.div_add_mod c N, mul_add, pow_add, ← mul_assoc, mul_comm i N, mul_assoc, pow_mul, hζ, one_pow, one_mul]
    have e2 : ζ ^ (i * ((b + N - a) % N)) * ζ ^ (i * a) = ζ ^ (i * b) := by
      rw [e, ← pow_add, ← mul_add, Nat.sub_add_cancel (by omega), mul_add, pow_add, mul_comm i N, pow_mul ζ N, hζ, one_pow, mul_one]
    rw [← e2]
    ring

theorem dft_add (ζ : K) (N : ℕ) (u v : ℕ → G) (i : ℕ) : dft ζ N u i + dft ζ N v i = dft ζ N (fun j => u j + v j) i := by
  unfold dft
  rw [← Finset.sum_add_distrib]
  exact Finset.sum_congr rfl fun j _ => (smul_add _ _ _).symm

/-! ## The Toeplitz product -/

/-- Entry `c` of the coefficients of `toeplitzCoeffsStepStrided`. -/
def toepEntry (f : List K) (k l i c : ℕ) : K :=
  if c = 0 then f.getD (f.length - 1 - i) 0 else if k + 2 ≤ c ∧ c < 2 * k then f.getD (2 * l - i - 1 + (c - (k + 2)) * l) 0 else 0

/-- Entry `a` of the vector of file `i`. -/
def fileEntry (g : G) (t : K) (n k l i a : ℕ) : G := if a < k - 1 then t ^ (n - l - 1 - i - a * l) • g else 0

theorem sum_range_blocks {M : Type} [AddCommMonoid M] (F : ℕ → M) (l : ℕ) : ∀ D, ∑ e ∈ range (D * l), F e = ∑ d ∈ range D, ∑ i ∈ range l, F (d * l + i)
  | 0 => by simp
  | D + 1 => by rw [Nat.succ_mul, Finset.sum_range_add, sum_range_blocks F l D, Finset.sum_range_succ]

theorem cyc_file (f : List K) (g : G) (t : K) {k l i b : ℕ} (hk : 2 ≤ k) (hi : i < l) (hf : f.length = k * l) (hb : b < k) :
    cyc (2 * k) (toepEntry f k l i) (fileEntry g t f.length k l i) b = ∑ d ∈ range (k - 1 - b), (f.getD (f.length - 1 - (d * l + i)) 0 * t ^ (f.length - 1 - (d * l + i) - (b + 1) * l)) • g := by
  unfold cyc
  have hkk : k * l = (k - 1 - b) * l + (b + 1) * l := by rw [← Nat.add_mul]; congr 1; omega
  -- split the range
  have e1 : 2 * k = b + ((k - 1 - b) + (k + 1)) := by omega
  conv_lhs => rw [show range (2 * k) = range (b + ((k - 1 - b) + (k + 1))) by rw [← e1]]
  rw [Finset.sum_range_add, Finset.sum_range_add]
  have h1 : ∑ a ∈ range b, toepEntry f k l i ((b + 2 * k - a) % (2 * k)) • fileEntry g t f.length k l i a = 0 := by
    refine Finset.sum_eq_zero fun a ha => ?_
    have ha' := Finset.mem_range.1 ha
    rw [show b + 2 * k - a = (b - a) + 2 * k by omega, Nat.add_mod_right, Nat.mod_eq_of_lt (by omega), toepEntry, if_neg (by omega), if_neg (by omega), zero_smul]
  have h2 : ∑ a ∈ range (k + 1), toepEntry f k l i ((b + 2 * k - (b + (k - 1 - b + a))) % (2 * k)) • fileEntry g t f.length k l i (b + (k - 1 - b + a)) = 0 := by
    refine Finset.sum_eq_zero fun a ha => ?_
    rw [fileEntry, if_neg (by omega), smul_zero]
  rw [h1, h2, zero_add, add_zero]
  refine Finset.sum_congr rfl fun d hd => ?_
  have hd' := Finset.mem_range.1 hd
  have hdl : (d + 1) * l ≤ (k - 1 - b) * l := Nat.mul_le_mul_right _ (by omega)
  rw [Nat.succ_mul] at hdl
  have e2 : (b + 1) * l = b * l + l := Nat.succ_mul b l
  have e3 : (b + d) * l = b * l + d * l := Nat.add_mul b d l
  rw [fileEntry, if_pos (by omega), smul_smul]
  congr 2
  · rw [show b + 2 * k - (b + d) = 2 * k - d by omega]
    rcases Nat.eq_zero_or_pos d with rfl | hpos
    · rw [Nat.sub_zero, Nat.mod_self, toepEntry, if_pos rfl]
      congr 1
      omega
    · rw [Nat.mod_eq_of_lt (by omega), toepEntry, if_neg (by omega), if_pos (by omega)]
      congr 1
      have e4 : (2 * k - d - (k + 2)) * l + 2 * l + d * l = k * l := by
        rw [← Nat.add_mul, ← Nat.add_mul]; congr 1; omega
      omega
  · congr 1
    omega

/-- The sum over the files: entry `b` of `h` is the quotient by `X^((b+1)l)` at the secret. -/
theorem cyc_files (f : List K) (g : G) (t : K) {k l b : ℕ} (hk : 2 ≤ k) (hf : f.length = k * l) (hb : b < k) :
    ∑ i ∈ range l, cyc (2 * k) (toepEntry f k l i) (fileEntry g t f.length k l i) b = polyVal (f.drop ((b + 1) * l)) t • g := by
  rw [Finset.sum_congr rfl fun i hi => cyc_file f g t hk (Finset.mem_range.1 hi) hf hb, Finset.sum_comm,
    ← sum_range_blocks (fun e => (f.getD (f.length - 1 - e) 0 * t ^ (f.length - 1 - e - (b + 1) * l)) • g) l (k - 1 - b)]
  have hN : (k - 1 - b) * l = f.length - (b + 1) * l := by
    rw [hf, ← Nat.sub_mul]; congr 1; omega
  rw [polyVal, Finset.sum_smul, List.length_drop, hN, ← Finset.sum_range_reflect]
  refine Finset.sum_congr rfl fun j hj => ?_
  have hj' := Finset.mem_range.1 hj
  congr 2
  · simp only [List.getD, List.getElem?_drop]
    congr 2
    omega
  · congr 1
    omega

/-! ## The quotient -/

theorem drop_split (f : List K) (l : ℕ) : polyOf f = X ^ l * polyOf (f.drop l) + polyOf (f.take l) := by
  ext j
  rw [coeff_add, coeff_X_pow_mul', coeff_polyOf, coeff_polyOf, coeff_polyOf]
  simp only [List.getD, List.getElem?_drop, List.getElem?_take]
  by_cases h : l ≤ j
  · rw [if_pos h, if_neg (by omega), show l + (j - l) = j by omega]; simp
  · rw [if_neg h, if_pos (by omega), zero_add]

theorem quot_telescope (f : List K) (z : K) (l : ℕ) : ∀ k, polyOf f = (∑ b ∈ range k, C (z ^ b) * polyOf (f.drop ((b + 1) * l))) * (X ^ l - C z) +
    (C (z ^ k) * polyOf (f.drop (k * l)) + ∑ b ∈ range k, C (z ^ b) * polyOf ((f.drop (b * l)).take l))
  | 0 => by simp
  | k + 1 => by
    rw [Finset.sum_range_succ, Finset.sum_range_succ]
    have h1 := quot_telescope f z l k
    have h2 := drop_split (f.drop (k * l)) l
    rw [List.drop_drop, show k * l + l = (k + 1) * l by ring] at h2
    rw [h2] at h1
    conv_lhs => rw [h1]
    rw [pow_succ, map_mul]
    ring

theorem quot_eval (f : List K) (z t : K) {k l : ℕ} (hl : 0 < l) (hf : f.length ≤ k * l) :
    ∑ b ∈ range k, z ^ b * polyVal (f.drop ((b + 1) * l)) t = (polyOf f /ₘ (X ^ l - C z)).eval t := by
  have h := quot_telescope f z l k
  have h0 : f.drop (k * l) = [] := List.drop_eq_nil_of_le hf
  rw [h0, polyOf_nil, mul_zero, zero_add] at h
  have hdeg : (∑ b ∈ range k, C (z ^ b) * polyOf ((f.drop (b * l)).take l)).degree < (l : ℕ) := by
    rw [degree_lt_iff_coeff_zero]
    intro m hm
    rw [finset_sum_coeff]
    refine Finset.sum_eq_zero fun b _ => ?_
    rw [coeff_C_mul, coeff_polyOf, List.getD_eq_default _ _ (by rw [List.length_take]; omega), mul_zero]
  have h3 : (∑ b ∈ range k, C (z ^ b) * polyOf ((f.drop (b * l)).take l)) + (X ^ l - C z) * (∑ b ∈ range k, C (z ^ b) * polyOf (f.drop ((b + 1) * l))) = polyOf f := by rw [h]; ring
  have hu := (div_modByMonic_unique _ _ (coset_monic z hl.ne') ⟨h3, by rw [degree_X_pow_sub_C hl]; exact hdeg⟩).1
  rw [hu, eval_finsetSum]
  refine Finset.sum_congr rfl fun b _ => ?_
  rw [eval_mul, eval_C, eval_polyOf]

end

/-! ## The functions -/

section
variable {K G : Type} [Field K] [DecidableEq K] [AddCommGroup G] [Module K G]

theorem toeplitzCoeffs_ok (f : List K) {k l i : ℕ} (hk : 2 ≤ k) (hi : i < l) (hf : f.length = k * l) :
    toeplitzCoeffsStepStrided f i l = .ok ((List.range (2 * k)).map (toepEntry f k l i)) := by
  have hl : 0 < l := by omega
  have hkl : 2 * l ≤ k * l := Nat.mul_le_mul_right _ hk
  unfold toeplitzCoeffsStepStrided
  simp only [if_neg hl.ne']
  have hdiv : f.length / l = k := by rw [hf, Nat.mul_div_cancel _ hl]
  rw [hdiv, if_neg (by omega), idx_of_lt (by omega), Go.ok_bind, if_neg (by omega)]
  rw [mapM_ok _ (fun m => f.getD (2 * l - i - 1 + m * l) 0), Go.ok_bind, Go.pure_eq]
  · congr 1
    refine List.ext_getElem (by simp; omega) fun c h1 h2 => ?_
    rw [List.getElem_map, List.getElem_range]
    rw [List.length_map, List.length_range] at h2
    rw [toepEntry]
    rcases c with _ | c
    · rw [List.getElem_cons_zero, if_pos rfl, List.getD_eq_getElem _ _ (by omega)]
    · rw [List.getElem_cons_succ, if_neg (by omega)]
      by_cases hc : c < k + 1
      · rw [List.getElem_append_left (by simpa using hc), List.getElem_replicate, if_neg (by omega)]
      · rw [List.getElem_append_right (by simpa using hc), List.getElem_map, List.getElem_range, if_pos (by omega)]
        congr 3
        simp only [List.length_replicate]
        omega
  · intro m hm
    have hm' := List.mem_range.1 hm
    have h1 : m * l ≤ (k - 3) * l := Nat.mul_le_mul_right _ (by omega)
    have h2 : (k - 3) * l + 3 * l = k * l := by rw [← Nat.add_mul]; congr 1; omega
    rw [idx_of_lt (by omega), List.getD_eq_getElem _ _ (by omega)]

theorem toeplitzCoeffsStep_eq (f : List K) : toeplitzCoeffsStep f = toeplitzCoeffsStepStrided f 0 1 := by
  unfold toeplitzCoeffsStep toeplitzCoeffsStepStrided
  simp only [Nat.div_one, if_neg one_ne_zero, Nat.sub_zero, zero_add, mul_one]
  by_cases h : f.length * 2 = 0
  · rw [if_pos h, if_pos (Or.inl h)]
  · rw [if_neg h, if_neg (by omega)]

variable {fs : FFTSettings K} {s : ℕ} {w : K}

theorem part1_ok (hfs : fs.Ok s w) {κ : ℕ} (hκ : κ + 1 ≤ s) (x : List G) (hx : x.length = 2 ^ κ) :
    toeplitzPart1 fs x = .ok ((List.range (2 * 2 ^ κ)).map (dft (w ^ 2 ^ (s - (κ + 1))) (2 * 2 ^ κ) fun j => x.getD j 0)) := by
  have hl : (x ++ List.replicate x.length (0 : G)).length = 2 ^ (κ + 1) := by rw [List.length_append, List.length_replicate, hx, pow_succ]; ring
  rw [toeplitzPart1, fftG1_ok hfs hκ _ hl]
  have e : 2 ^ (κ + 1) = 2 * 2 ^ κ := by rw [pow_succ]; ring
  simp only [orPanic, Go.ok_bind, Go.pure_eq]
  rw [e]
  congr 2
  funext i
  simp only [ftOf, Bool.false_eq_true, if_false, e]
  refine dft_congr (fun j _ => ?_) i
  simp only [List.getD, List.getElem?_append, List.getElem?_replicate]
  by_cases h : j < x.length
  · rw [if_pos h]
  · rw [if_neg h, List.getElem?_eq_none (by omega)]
    split <;> rfl

theorem part2_ok (hfs : fs.Ok s w) {κ : ℕ} (hκ : κ + 1 ≤ s) (T : ℕ → K) (x : ℕ → G) :
    toeplitzPart2 fs ((List.range (2 * 2 ^ κ)).map T) ((List.range (2 * 2 ^ κ)).map (dft (w ^ 2 ^ (s - (κ + 1))) (2 * 2 ^ κ) x)) =
      .ok ((List.range (2 * 2 ^ κ)).map (dft (w ^ 2 ^ (s - (κ + 1))) (2 * 2 ^ κ) (cyc (2 * 2 ^ κ) T x))) := by
  set ζ := w ^ 2 ^ (s - (κ + 1)) with hζ
  have hprim : IsPrimitiveRoot ζ (2 ^ (κ + 1)) := hfs.sub_root hκ
  have e : 2 ^ (κ + 1) = 2 * 2 ^ κ := by rw [pow_succ]; ring
  have hfft : fft fs ((List.range (2 * 2 ^ κ)).map T) false = .ok (some ((List.range (2 * 2 ^ κ)).map (dft ζ (2 * 2 ^ κ) T))) := by
    rw [fft_pow hfs hκ _ (by simp [e]), inplaceFFT_eq, fftG1_ok hfs hκ _ (by simp [e]), e]
    congr 3
    funext i
    simp only [ftOf, Bool.false_eq_true, if_false, e, ← hζ]
    exact dft_congr (fun j hj => getD_map_range T _ j 0 hj) i
  unfold toeplitzPart2
  rw [if_neg (by simp), hfft]
  simp only [orPanic, Go.ok_bind, Go.pure_eq, List.length_map, List.length_range]
  refine mapM_ok _ _ _ fun i hi => ?_
  have hi' := List.mem_range.1 hi
  rw [idx_of_lt (by simpa using hi'), Go.ok_bind, List.getElem_map, List.getElem_range, at0, getD_map_range _ _ _ _ hi', conv_dft (by positivity) (by rw [← e]; exact hprim.pow_eq_one)]

theorem part3_ok (hfs : fs.Ok s w) {κ : ℕ} (hκ : κ + 1 ≤ s) (H : ℕ → G) :
    toeplitzPart3 fs ((List.range (2 * 2 ^ κ)).map (dft (w ^ 2 ^ (s - (κ + 1))) (2 * 2 ^ κ) H)) = .ok ((List.range (2 ^ κ)).map H, 2 * 2 ^ κ) := by
  set ζ := w ^ 2 ^ (s - (κ + 1)) with hζ
  have hprim : IsPrimitiveRoot ζ (2 ^ (κ + 1)) := hfs.sub_root hκ
  have e : 2 ^ (κ + 1) = 2 * 2 ^ κ := by rw [pow_succ]; ring
  unfold toeplitzPart3
  rw [fftG1_ok hfs hκ _ (by simp [e])]
  simp only [orPanic, Go.ok_bind, Go.pure_eq, List.length_map, List.length_range]
  congr 2
  · rw [e, Nat.mul_div_cancel_left _ (by norm_num), ← List.map_take, List.take_range, min_eq_left (by omega)]
    refine List.map_congr_left fun m hm => ?_
    have hm' := List.mem_range.1 hm
    rw [← hζ, ftOf_congr (v' := ftOf ζ (κ + 1) false H) fun j hj => by
      rw [getD_map_range _ _ _ _ (by omega)]
      simp [ftOf, e]]
    exact ftOf_inv hprim false H m (by omega)

/-- The vector of file `i` of the settings. -/
theorem file_ok (hfs : fs.Ok s w) {κ l n i : ℕ} (hκ : κ + 1 ≤ s) (hi : i < l) (hn : n = 2 ^ κ * l) (g : G) (t : K) (secretG1 : List G)
    (hs : ∀ j < n - l, idx secretG1 j = .ok (t ^ j • g)) :
    (do let x ← (List.range (2 ^ κ - 1)).mapM fun a => idx secretG1 (n - l - 1 - i - a * l)
        toeplitzPart1 fs (x ++ [0]) : Go (List G)) = .ok ((List.range (2 * 2 ^ κ)).map (dft (w ^ 2 ^ (s - (κ + 1))) (2 * 2 ^ κ) (fileEntry g t n (2 ^ κ) l i))) := by
  have hpos : 0 < 2 ^ κ := by positivity
  have hkl : 2 ^ κ * l = (2 ^ κ - 1) * l + l := by rw [← Nat.succ_mul]; congr 1; omega
  rw [mapM_ok _ (fun a => t ^ (n - l - 1 - i - a * l) • g), Go.ok_bind, part1_ok hfs hκ _ (by simp; omega)]
  · congr 2
    funext j
    refine dft_congr (fun a _ => ?_) j
    rw [fileEntry]
    by_cases ha : a < 2 ^ κ - 1
    · rw [if_pos ha, List.getD_append _ _ _ _ (by simpa using ha), getD_map_range _ _ _ _ ha]
    · rw [if_neg ha, List.getD_append_right _ _ _ _ (by simpa using ha)]
      simp only [List.length_map, List.length_range]
      rcases a - (2 ^ κ - 1) with _ | c
      · rfl
      · rfl
  · intro a ha
    have ha' := List.mem_range.1 ha
    have h1 : (a + 1) * l ≤ (2 ^ κ - 1) * l := Nat.mul_le_mul_right _ (by omega)
    rw [Nat.succ_mul] at h1
    exact hs _ (by omega)

/-- The fold over the files. -/
theorem fold_ok (hfs : fs.Ok s w) {κ l : ℕ} (hκ1 : 1 ≤ κ) (hκ : κ + 1 ≤ s) (f : List K) (hf : f.length = 2 ^ κ * l) (g : G) (t : K) (files : List (List G))
    (hfiles : ∀ i < l, idx files i = .ok ((List.range (2 * 2 ^ κ)).map (dft (w ^ 2 ^ (s - (κ + 1))) (2 * 2 ^ κ) (fileEntry g t f.length (2 ^ κ) l i)))) : ∀ m ≤ l,
    (List.range m).foldlM (fk20MultiStep fs l files f (2 * 2 ^ κ)) (List.replicate (2 * 2 ^ κ) 0) =
      .ok ((List.range (2 * 2 ^ κ)).map (dft (w ^ 2 ^ (s - (κ + 1))) (2 * 2 ^ κ) fun b => ∑ i ∈ range m, cyc (2 * 2 ^ κ) (toepEntry f (2 ^ κ) l i) (fileEntry g t f.length (2 ^ κ) l i) b))
  | 0, _ => by
    rw [List.range_zero, List.foldlM_nil, Go.pure_eq]
    congr 1
    refine List.ext_getElem (by simp) fun c h1 h2 => ?_
    simp [dft]
  | m + 1, hm => by
    have hk2 : 2 ≤ 2 ^ κ := by
      calc 2 = 2 ^ 1 := by norm_num
        _ ≤ 2 ^ κ := Nat.pow_le_pow_right (by norm_num) hκ1
    rw [List.range_succ, List.foldlM_append, fold_ok hfs hκ1 hκ f hf g t files hfiles m (by omega), Go.ok_bind, List.foldlM_cons, fk20MultiStep, toeplitzCoeffs_ok f hk2 (by omega) hf, Go.ok_bind,
      hfiles m (by omega), Go.ok_bind, part2_ok hfs hκ, Go.ok_bind]
    rw [mapM_ok _ (fun j => dft (w ^ 2 ^ (s - (κ + 1))) (2 * 2 ^ κ) (fun b => ∑ i ∈ range (m + 1), cyc (2 * 2 ^ κ) (toepEntry f (2 ^ κ) l i) (fileEntry g t f.length (2 ^ κ) l i) b) j), Go.ok_bind,
      List.foldlM_nil, Go.pure_eq]
    intro j hj
    have hj' := List.mem_range.1 hj
    rw [idx_of_lt (by simpa using hj'), idx_of_lt (by simpa using hj'), Go.ok_bind, Go.ok_bind, Go.pure_eq, List.getElem_map, List.getElem_range, List.getElem_map, List.getElem_range, dft_add]
    simp only [Finset.sum_range_succ]

/-- The last transform, on `k` or on `2k` points. -/
theorem final_ok (hfs : fs.Ok s w) {κ l r : ℕ} (hl : 0 < l) (hr : r ≤ s) (hκr : κ ≤ r) (f : List K) (hf : f.length = 2 ^ κ * l) (g : G) (t : K) (h : List G) (hh : h.length = 2 ^ r)
    (hv : ∀ b < 2 ^ r, h.getD b 0 = if b < 2 ^ κ then polyVal (f.drop ((b + 1) * l)) t • g else 0) :
    orPanic (fftG1 fs h false) = .ok ((List.range (2 ^ r)).map fun c => (polyOf f /ₘ (X ^ l - C ((w ^ 2 ^ (s - r)) ^ c))).eval t • g) := by
  rw [fftG1_ok hfs hr h hh]
  simp only [orPanic, Go.ok_bind, Go.pure_eq]
  congr 2
  funext c
  simp only [ftOf, Bool.false_eq_true, if_false]
  rw [dft_congr hv, dft, ← quot_eval f _ t hl hf.le, Finset.sum_smul]
  have hsub : range (2 ^ κ) ⊆ range (2 ^ r) := Finset.range_subset_range.2 (Nat.pow_le_pow_right (by norm_num) hκr)
  rw [← Finset.sum_subset hsub]
  · refine Finset.sum_congr rfl fun b hb => ?_
    rw [if_pos (Finset.mem_range.1 hb), smul_smul, pow_mul]
  · intro b _ hb
    rw [if_neg (by simpa using hb), smul_zero]

end

end DyCAPS
