import Mathlib.GroupTheory.OrderOfElement
import Verif.Lemmas.FFTUse
import Verif.Spec.Poly

/-!
# The FFT library: transforms, extension, evaluation form (C42, C43, C45, C48)
-/

namespace DyCAPS

open Finset

/-! ## C42 -/

theorem fft_eq (fs : FFTSettings Fr) (vals : List Fr) (inv : Bool) {s : ℕ} {w : Fr} (h : fs.Ok s w) (hlen : vals.length ≤ 2 ^ s) :
    ∃ k, vals.length ≤ 2 ^ k ∧ (∀ j, vals.length ≤ 2 ^ j → k ≤ j) ∧ k ≤ s ∧ nextPowOf2 vals.length = 2 ^ k ∧
      fft fs vals inv = fftG1 fs (vals ++ List.replicate (2 ^ k - vals.length) 0) inv := by
  obtain ⟨k, h1, h2, h3⟩ := nextPowOf2_spec vals.length
  refine ⟨k, h2, h3, h3 s hlen, h1, ?_⟩
  rw [fft, if_neg (by rw [h.width]; omega), h1, inplaceFFT_eq]

theorem getD_append_zeros (c : List Fr) (m j : ℕ) : (c ++ List.replicate m 0).getD j 0 = c.getD j 0 := by
  simp only [List.getD, List.getElem?_append, List.getElem?_replicate]
  by_cases h : j < c.length
  · rw [if_pos h]
  · rw [if_neg h, List.getElem?_eq_none (by omega)]
    split <;> rfl

/-- The transform pads with zeros to the next power of two `2^k` and evaluates the coefficient list at the powers of the table's root of order `2^k`. Longer inputs are rejected. -/
theorem C42_fft {s : ℕ} {fs : FFTSettings Fr} (h : newFFTSettings s = some fs) (c : List Fr) :
    (c.length ≤ 2 ^ s → ∃ k ω, c.length ≤ 2 ^ k ∧ (∀ j, c.length ≤ 2 ^ j → k ≤ j) ∧ scale2Root k = some ω ∧ orderOf ω = 2 ^ k ∧
      fft fs c false = .ok (some ((List.range (2 ^ k)).map fun i => polyVal c (ω ^ i)))) ∧
    (2 ^ s < c.length → ∀ inv, fft fs c inv = .ok none) := by
  obtain ⟨hs, w, hw, ok⟩ := newFFTSettings_some h
  constructor
  · intro hlen
    obtain ⟨k, h1, h2, h3, -, h4⟩ := fft_eq fs c false ok hlen
    refine ⟨k, w ^ 2 ^ (s - k), h1, h2, scale2Root_sub hw h3, (ok.sub_root h3).eq_orderOf.symm, ?_⟩
    rw [h4, fftG1_ok ok h3 _ (by simp; omega)]
    congr 3
    funext i
    simp only [ftOf, getD_append_zeros, Bool.false_eq_true, if_false]
    exact dft_polyVal _ c _ h1 i
  · intro hlen inv
    rw [fft, if_pos (by rw [ok.width]; exact hlen)]

/-- The inverse transform returns the coefficients of the polynomial with the given (padded) values, and each transform undoes the other on power-of-two lengths. -/
theorem C42_inverse {s : ℕ} {fs : FFTSettings Fr} (h : newFFTSettings s = some fs) (v : List Fr) (hlen : v.length ≤ 2 ^ s) :
    ∃ k ω out, v.length ≤ 2 ^ k ∧ (∀ j, v.length ≤ 2 ^ j → k ≤ j) ∧ scale2Root k = some ω ∧ fft fs v true = .ok (some out) ∧ out.length = 2 ^ k ∧
      (∀ i < 2 ^ k, polyVal out (ω ^ i) = v.getD i 0) ∧
      (v.length = 2 ^ k → fft fs out false = .ok (some v) ∧ ∃ out', fft fs v false = .ok (some out') ∧ fft fs out' true = .ok (some v)) := by
  obtain ⟨hs, w, hw, ok⟩ := newFFTSettings_some h
  obtain ⟨k, h1, h2, h3, -, h4⟩ := fft_eq fs v true ok hlen
  have hpl : (v ++ List.replicate (2 ^ k - v.length) 0).length = 2 ^ k := by simp; omega
  have hok := fftG1_ok ok h3 _ hpl true
  set out := (List.range (2 ^ k)).map (ftOf (w ^ 2 ^ (s - k)) k true fun j => (v ++ List.replicate (2 ^ k - v.length) 0).getD j 0) with hout
  obtain ⟨hol, hinv⟩ := fftG1_inv ok h3 _ hpl true hok
  have hround : ∀ (u : List Fr) inv, u.length = 2 ^ k → fft fs u inv = fftG1 fs u inv := by
    intro u inv hu
    obtain ⟨k', h1', h2', h3', h5', h4'⟩ := fft_eq fs u inv ok (by rw [hu]; exact Nat.pow_le_pow_right (by norm_num) h3)
    have : k' = k := le_antisymm (h2' k hu.le) ((Nat.pow_le_pow_iff_right (by norm_num)).1 (hu ▸ h1'))
    subst this
    rw [h4', hu, Nat.sub_self, List.replicate_zero, List.append_nil]
  refine ⟨k, w ^ 2 ^ (s - k), out, h1, h2, scale2Root_sub hw h3, h4.trans hok, hol, ?_, ?_⟩
  · intro i hi
    have h6 := fftG1_ok ok h3 out hol false
    rw [show (!true) = false from rfl, h6] at hinv
    simp only [Except.ok.injEq, Option.some.injEq] at hinv
    have h7 := getD_map_range (ftOf (w ^ 2 ^ (s - k)) k false fun j => out.getD j 0) (2 ^ k) i 0 hi
    rw [hinv, getD_append_zeros] at h7
    rw [h7]
    simp only [ftOf, Bool.false_eq_true, if_false]
    rw [dft_polyVal _ out _ hol.le]
  · intro hv
    have hv0 : v ++ List.replicate (2 ^ k - v.length) 0 = v := by rw [hv]; simp
    rw [hv0] at hinv
    refine ⟨(hround out false hol).trans hinv, ?_⟩
    have hok' := fftG1_ok ok h3 v hv false
    obtain ⟨hl', hi'⟩ := fftG1_inv ok h3 v hv false hok'
    exact ⟨_, (hround v false hv).trans hok', (hround _ true hl').trans hi'⟩

/-- `InplaceFFT` without values divides by zero, because `IsPowerOfTwo(0)` holds; other lengths that are no power of two are rejected. -/
theorem C42_inplace (fs : FFTSettings Fr) (inv : Bool) : inplaceFFT fs [] inv = .error .panic ∧
    ∀ v : List Fr, v ≠ [] → (∀ k, v.length ≠ 2 ^ k) → inplaceFFT fs v inv = .ok none := by
  refine ⟨rfl, fun v hv hk => ?_⟩
  rw [inplaceFFT]
  have : isPowerOfTwo v.length = false := by
    rw [isPowerOfTwo, beq_eq_false_iff_ne]
    intro h
    have := (Nat.and_sub_one_eq_zero_iff_isPowerOfTwo (by simpa using hv)).1 h
    obtain ⟨k, hk'⟩ := this
    exact hk k hk'
  split
  · rfl
  · simp [this]

/-- All scales up to 31 give settings. -/
theorem C42_settings (s : ℕ) : (newFFTSettings s).isSome ↔ s < 32 := by
  constructor
  · intro h
    obtain ⟨fs, hfs⟩ := Option.isSome_iff_exists.1 h
    exact (newFFTSettings_some hfs).1
  · intro h
    obtain ⟨fs, w, h1, -⟩ := newFFTSettings_ok h
    rw [h1]; rfl

/-- Three coefficients with settings for eight values: the four values `1 + 2x + 3x²` at 1, i, -1, -i. -/
example : ∃ fs ω, newFFTSettings 3 = some fs ∧ ω ^ 2 = -1 ∧ fft fs [1, 2, 3] false = .ok (some [6, 2 * ω - 2, 2, -2 * ω - 2]) := by
  obtain ⟨fs, w, h1, -⟩ := newFFTSettings_ok (s := 3) (by norm_num)
  obtain ⟨k, ω, h2, h3, h4, h5, h6⟩ := (C42_fft h1 [1, 2, 3]).1 (by simp)
  have hk : k = 2 := by
    have := h3 2 (by simp)
    interval_cases k
    · simp at h2
    · simp at h2
    · rfl
  subst hk
  have hw : ω ^ 2 = -1 := pow_half (k := 1) (scale2Root_prim h4).2
  refine ⟨fs, ω, h1, hw, h6.trans ?_⟩
  have h3' : ω ^ 3 = -ω := by rw [pow_succ, hw]; ring
  have h4' : (-1 : Fr) ^ 2 = 1 := by norm_num
  have h5' : (-ω) ^ 2 = -1 := by rw [neg_sq, hw]
  simp [polyVal, sum_range_succ, List.range_succ, hw, h3', h5']
  refine ⟨by norm_num, by ring, by norm_num, by ring⟩

/-! ## C43 -/

section
variable {G : Type} [AddCommGroup G] [Module Fr G]

/-- The group transform computes `Σ_j ω^(ij) P_j`; on multiples of a point it is the scalar transform; and forth and back is the identity. -/
theorem C43_fftG1 {s k : ℕ} {fs : FFTSettings Fr} (h : newFFTSettings s = some fs) (hk : k ≤ s) (ps : List G) (hl : ps.length = 2 ^ k) :
    ∃ ω, scale2Root k = some ω ∧ fftG1 fs ps false = .ok (some ((List.range (2 ^ k)).map fun i => ∑ j ∈ range (2 ^ k), ω ^ (i * j) • ps.getD j 0)) ∧
      ∀ inv, ∃ out, fftG1 fs ps inv = .ok (some out) ∧ out.length = 2 ^ k ∧ fftG1 fs out (!inv) = .ok (some ps) := by
  obtain ⟨hs, w, hw, ok⟩ := newFFTSettings_some h
  refine ⟨w ^ 2 ^ (s - k), scale2Root_sub hw hk, fftG1_ok ok hk ps hl false, fun inv => ?_⟩
  exact ⟨_, fftG1_ok ok hk ps hl inv, fftG1_inv ok hk ps hl inv (fftG1_ok ok hk ps hl inv)⟩

theorem C43_multiples {s k : ℕ} {fs : FFTSettings Fr} (h : newFFTSettings s = some fs) (hk : k ≤ s) (c : List Fr) (hl : c.length = 2 ^ k) (g : G) (inv : Bool) :
    ∃ v, fft fs c inv = .ok (some v) ∧ fftG1 fs (c.map (· • g)) inv = .ok (some (v.map (· • g))) := by
  obtain ⟨hs, w, hw, ok⟩ := newFFTSettings_some h
  obtain ⟨k', h1, h2, h3, -, h4⟩ := fft_eq fs c inv ok (by rw [hl]; exact Nat.pow_le_pow_right (by norm_num) hk)
  have : k' = k := le_antisymm (h2 k hl.le) ((Nat.pow_le_pow_iff_right (by norm_num)).1 (hl ▸ h1))
  subst this
  rw [hl, Nat.sub_self, List.replicate_zero, List.append_nil] at h4
  refine ⟨_, h4.trans (fftG1_ok ok hk c hl inv), ?_⟩
  rw [fftG1_ok ok hk _ (by simpa using hl), List.map_map]
  congr 3
  funext i
  have e : ∀ j, (c.map (· • g)).getD j 0 = c.getD j 0 • g := by
    intro j
    simp only [List.getD, List.getElem?_map]
    cases c[j]? <;> simp
  simp only [Function.comp, ftOf, dft, e]
  cases inv <;> simp [Finset.sum_smul, mul_smul]

/-- Other lengths: no points is a panic, and unlike `FFT` the group transform does not pad. -/
theorem C43_lengths (fs : FFTSettings Fr) (inv : Bool) : fftG1 fs ([] : List G) inv = .error .panic ∧
    ∀ ps : List G, ps ≠ [] → (∀ k, ps.length ≠ 2 ^ k) ∨ fs.maxWidth < ps.length → fftG1 fs ps inv = .ok none := by
  refine ⟨by simp [fftG1, isPowerOfTwo], fun v hv hk => ?_⟩
  rw [fftG1]
  rcases hk with hk | hk
  · have : isPowerOfTwo v.length = false := by
      rw [isPowerOfTwo, beq_eq_false_iff_ne]
      intro h
      obtain ⟨k, hk'⟩ := (Nat.and_sub_one_eq_zero_iff_isPowerOfTwo (by simpa using hv)).1 h
      exact hk k hk'
    split
    · rfl
    · simp [this]
  · simp [hk]

end

/-- Two points: `[P + Q, P - Q]`. -/
example (P Q : Fr) : ∃ fs, newFFTSettings 3 = some fs ∧ fftG1 fs [P, Q] false = .ok (some [P + Q, P - Q]) := by
  obtain ⟨fs, w, h1, -⟩ := newFFTSettings_ok (s := 3) (by norm_num)
  obtain ⟨ω, h2, h3, -⟩ := C43_fftG1 (k := 1) h1 (by norm_num) [P, Q] rfl
  have hw : ω = -1 := by simpa using pow_half (k := 0) (scale2Root_prim h2).2
  refine ⟨fs, h1, h3.trans ?_⟩
  subst hw
  simp [sum_range_succ, List.range_succ]
  ring

/-! ## C45 -/

/-- With settings for exactly `2n` values (`n = 2^k ≥ 2`), the extension of the samples at the even powers of the root is given by the values, at the odd powers, of the unique polynomial with fewer than `n+1`
coefficients through the samples. -/
theorem C45_extension_partial {k : ℕ} {fs : FFTSettings Fr} (h : newFFTSettings (k + 2) = some fs) (v : List Fr) (hl : v.length = 2 ^ (k + 1)) :
    ∃ ω c, scale2Root (k + 2) = some ω ∧ c.length = 2 ^ (k + 1) ∧ (∀ i < 2 ^ (k + 1), polyVal c (ω ^ (2 * i)) = v.getD i 0) ∧
      (∀ c' : List Fr, c'.length = 2 ^ (k + 1) → (∀ i < 2 ^ (k + 1), polyVal c' (ω ^ (2 * i)) = v.getD i 0) → c' = c) ∧
      dasFFTExtension fs v = .ok ((List.range (2 ^ (k + 1))).map fun i => polyVal c (ω ^ (2 * i + 1))) := by
  obtain ⟨hs, w, hw, ok⟩ := newFFTSettings_some h
  have hp2 : IsPrimitiveRoot (w ^ 2) (2 ^ (k + 1)) := ok.prim.pow (by positivity) (by rw [pow_succ 2 (k + 1), mul_comm])
  have hn : 0 < 2 ^ (k + 1) := by positivity
  have h0 := natCast_ne_zero_of_root hp2 hn
  set n := 2 ^ (k + 1) with hndef
  set D := dft (w ^ 2)⁻¹ n (fun j => v.getD j 0) with hD
  set c : List Fr := (List.range n).map fun j => (n : Fr)⁻¹ * D j with hc
  have hcl : c.length = n := by simp [hc]
  have hcv : ∀ i < n, polyVal c (w ^ (2 * i)) = v.getD i 0 := by
    intro i hi
    rw [pow_mul, ← dft_polyVal (w ^ 2) c n hcl.le i]
    rw [dft_congr (v' := fun j => (n : Fr)⁻¹ • D j) fun j hj => by rw [hc, getD_map_range _ _ _ _ hj]; rfl]
    rw [dft_smul, dft_inv' hp2 hn _ i hi, smul_smul, inv_mul_cancel₀ h0, one_smul]
  refine ⟨w, c, hw, hcl, hcv, ?_, ?_⟩
  · intro c' hl' hc'
    have hd : ∀ i < n, dft (w ^ 2) n (fun j => c'.getD j 0) i = dft (w ^ 2) n (fun j => c.getD j 0) i := by
      intro i hi
      rw [dft_polyVal _ _ _ hl'.le, dft_polyVal _ _ _ hcl.le, ← pow_mul, hc' i hi, hcv i hi]
    refine list_ext_getD (d := 0) (by rw [hl', hcl]) fun m hm => ?_
    rw [hl'] at hm
    have e1 := dft_inv hp2 hn (fun j => c'.getD j 0) m hm
    have e2 := dft_inv hp2 hn (fun j => c.getD j 0) m hm
    rw [dft_congr hd, e2] at e1
    exact (smul_right_injective _ h0 e1).symm
  · have hmw : ¬ v.length * 2 > fs.maxWidth := by rw [hl, ok.width, pow_succ 2 (k + 1)]; omega
    rw [dasFFTExtension, if_neg hmw, dasExt_ok ok 64 k 1 v (by omega) hl (by ring), Go.ok_bind, Go.pure_eq, List.map_map]
    congr 1
    refine List.map_congr_left fun i hi => ?_
    simp only [Function.comp, hl, pow_one]
    rw [← hndef, oddVals, ← dft_polyVal w c n hcl.le, ← smul_eq_mul, smul_eq_mul, mul_comm, ← smul_eq_mul, ← dft_smul]
    rw [← hD]
    clear_value D
    unfold dft
    refine sum_congr rfl fun j hj => ?_
    simp only [smul_eq_mul]
    rw [hc, getD_map_range _ _ _ _ (mem_range.1 hj), ← pow_mul, add_mul, one_mul, pow_add, mul_assoc 2 i j]
    ring

/-- Two samples, settings for four values: `[a, b]` at 1, -1 extends to `((a+b) ± (a-b) i) / 2` at `i`, `-i`. -/
example (a b : Fr) : ∃ fs ω, newFFTSettings 2 = some fs ∧ ω ^ 2 = -1 ∧ dasFFTExtension fs [a, b] = .ok [((a + b) + (a - b) * ω) * 2⁻¹, ((a + b) - (a - b) * ω) * 2⁻¹] := by
  obtain ⟨fs, w, h1, h2, ok⟩ := newFFTSettings_ok (s := 2) (by norm_num)
  refine ⟨fs, w, h1, pow_half (k := 1) ok.prim, ?_⟩
  rw [dasFFTExtension, if_neg (by rw [ok.width]; simp)]
  have hi : idx fs.expanded 1 = .ok w := by
    have := ok.exp_get (i := 1) (by norm_num)
    simp [idx, this]
  simp [dasExt, hi]

/-- With settings for more than `2n` values the code takes the wrong root: for two samples that differ and settings for `2^s ≥ 8` values the result is not the extension. -/
theorem C45_extension_wrong {s : ℕ} (hs : 3 ≤ s) {fs : FFTSettings Fr} (h : newFFTSettings s = some fs) (a b : Fr) (hab : a ≠ b) :
    ∃ ω, scale2Root 2 = some ω ∧ ∀ c : List Fr, c.length = 2 → polyVal c 1 = a → polyVal c (ω ^ 2) = b →
      ∃ out, dasFFTExtension fs [a, b] = .ok out ∧ out.getD 0 0 ≠ polyVal c ω := by
  obtain ⟨hs32, w, hw, ok⟩ := newFFTSettings_some h
  have hsub := ok.sub_root (k := 2) (by omega)
  refine ⟨w ^ 2 ^ (s - 2), scale2Root_sub hw (by omega), fun c hl h1 h2 => ?_⟩
  have h8 : 8 ≤ 2 ^ s := by calc 8 = 2 ^ 3 := rfl
                                _ ≤ 2 ^ s := Nat.pow_le_pow_right (by norm_num) hs
  have hi : idx fs.expanded 1 = .ok w := by
    have := ok.exp_get (i := 1) (by omega)
    simp [idx, this]
  refine ⟨[((a + b) + (a - b) * w) * 2⁻¹, ((a + b) - (a - b) * w) * 2⁻¹], ?_, ?_⟩
  · rw [dasFFTExtension, if_neg (by rw [ok.width]; simp; omega)]
    simp [dasExt, hi]
  · obtain ⟨x, y, rfl⟩ := List.length_eq_two.1 hl
    have hneg : (w ^ 2 ^ (s - 2)) ^ 2 = -1 := pow_half (k := 1) hsub
    rw [hneg] at h2
    simp only [polyVal, List.length_cons, List.length_nil, sum_range_succ, sum_range_zero] at h1 h2
    simp at h1 h2
    simp only [polyVal, List.length_cons, List.length_nil, sum_range_succ, sum_range_zero]
    simp only [List.getD_cons_zero, List.getD_cons_succ, pow_zero, mul_one, zero_add, pow_one]
    intro he
    have h20 : (2 : Fr) ≠ 0 := by
      have := natCast_ne_zero_of_root (ok.sub_root (k := 1) (by omega)) (by norm_num)
      simpa using this
    have hy : y ≠ 0 := by
      rintro rfl
      apply hab
      rw [← h1, ← h2]; ring
    rw [← h1, ← h2] at he
    have hwy : y * w = y * w ^ 2 ^ (s - 2) := by
      have : (x + y + (x + -y) + (x + y - (x + -y)) * w) * 2⁻¹ = x + y * w := by field_simp; ring
      rw [this] at he
      exact add_left_cancel he
    have hww := mul_left_cancel₀ hy hwy
    have : 2 ^ (s - 2) < 2 ^ s := Nat.pow_lt_pow_right (by norm_num) (by omega)
    have h2' : 1 < 2 ^ (s - 2) := Nat.one_lt_two_pow (by omega)
    have := ok.prim.pow_inj (i := 1) (j := 2 ^ (s - 2)) (by omega) this (by rw [pow_one]; exact hww)
    omega

/-- Fewer than two samples: panic. -/
theorem C45_extension_small (fs : FFTSettings Fr) (v : List Fr) (h : v.length < 2) : dasFFTExtension fs v = .error .panic := by
  rw [dasFFTExtension]
  split
  · rfl
  · rw [dasExt, if_neg (by omega), if_pos h]
    rfl

/-! ## C48 -/

/-- Off the domain the barycentric formula gives the value of the polynomial with the given values. `roots` holds the powers of the root of order `2^(k+scale)` (one more entry, as in `ExpandedRootsOfUnity`, is
harmless when `scale > 0`). -/
theorem C48_off_domain_partial {k : ℕ} {ω : Fr} (hω : scale2Root k = some ω) (poly roots : List Fr) (scale : ℕ) (hl : poly.length = 2 ^ k) (hr : roots.length / 2 ^ scale = 2 ^ k)
    (hroots : ∀ i < 2 ^ k, roots[i * 2 ^ scale]? = some (ω ^ i)) (x : Fr) (hx : ∀ i < 2 ^ k, x ≠ ω ^ i) (c : List Fr) (hc : c.length ≤ 2 ^ k)
    (hev : ∀ i < 2 ^ k, poly.getD i 0 = polyVal c (ω ^ i)) : evaluatePolyInEvaluationForm poly x roots scale = .ok (polyVal c x) := by
  have hp := (scale2Root_prim hω).2
  refine evalForm_off (by positivity) hp hl hr hroots x (fun h => ?_) c hc hev
  haveI : NeZero (2 ^ k) := ⟨by positivity⟩
  obtain ⟨i, hi, he⟩ := hp.eq_pow_of_pow_eq_one h
  exact hx i hi he.symm

/-- On the domain the result is 0, whatever the value there. -/
theorem C48_domain {k : ℕ} {ω : Fr} (hω : scale2Root k = some ω) (poly roots : List Fr) (scale : ℕ) (hl : poly.length = 2 ^ k) (hr : roots.length / 2 ^ scale = 2 ^ k)
    (hroots : ∀ i < 2 ^ k, roots[i * 2 ^ scale]? = some (ω ^ i)) (i : ℕ) : evaluatePolyInEvaluationForm poly (ω ^ i) roots scale = .ok 0 := by
  have hp := (scale2Root_prim hω).2
  rw [evalForm_ok hl hr hroots, ← pow_mul, mul_comm i, pow_mul, hp.pow_eq_one, one_pow, sub_self, zero_mul, mul_zero]

/-- The constant polynomial 1 evaluates to 0 at 1. -/
theorem C48_wrong_on_domain {s : ℕ} {fs : FFTSettings Fr} (h : newFFTSettings s = some fs) :
    evaluatePolyInEvaluationForm (List.replicate (2 ^ s) 1) 1 (fs.expanded.take (2 ^ s)) 0 = .ok 0 ∧ polyVal [(1 : Fr)] 1 = 1 ∧
      ∀ i < 2 ^ s, (List.replicate (2 ^ s) (1 : Fr)).getD i 0 = polyVal [(1 : Fr)] (fs.expanded.getD i 0) := by
  obtain ⟨hs, w, hw, ok⟩ := newFFTSettings_some h
  refine ⟨?_, by simp [polyVal], fun i hi => by simp [polyVal, List.getD, List.getElem?_replicate, hi]⟩
  have := C48_domain hw (List.replicate (2 ^ s) 1) (fs.expanded.take (2 ^ s)) 0 (by simp) (by simp [ok.exp_length]) (fun i hi => by
    rw [pow_zero, mul_one, List.getElem?_take_of_lt hi, ok.exp_get hi.le]) 0
  rwa [pow_zero] at this

/-- The line `c` with values `a`, `b` at 1, -1 evaluated at 5. -/
example (a b : Fr) : evaluatePolyInEvaluationForm [a + b, a - b] 5 [1, -1] 0 = .ok (a + b * 5) := by
  have h := scale2Root_eq 1 (by norm_num)
  have hw : (7 : Fr) ^ ((frModulus - 1) / 2 ^ 1) = -1 := by simpa using pow_half (k := 0) (scale2Root_prim h).2
  rw [hw] at h
  have := C48_off_domain_partial h [a + b, a - b] [1, -1] 0 rfl rfl (by
    intro i hi
    interval_cases i <;> simp) 5 (by
    intro i hi
    interval_cases i <;> decide +kernel) [a, b] (by simp) (by
    intro i hi
    interval_cases i <;> simp [polyVal, sum_range_succ]; ring)
  rw [this]
  simp [polyVal, sum_range_succ]

/-- The transform of `g, 2g` is `3g, -g`; a single sample cannot be extended. -/
example (g : Fr) : ∃ fs, newFFTSettings 3 = some fs ∧ fftG1 fs (([1, 2] : List Fr).map (· • g)) false = .ok (some [(3 : Fr) • g, (-1 : Fr) • g]) ∧ dasFFTExtension fs [5] = .error .panic := by
  obtain ⟨fs, w, h1, -⟩ := newFFTSettings_ok (s := 3) (by norm_num)
  obtain ⟨ω, h2, h3, -⟩ := C43_fftG1 (k := 1) h1 (by norm_num) ([1, 2] : List Fr) rfl
  have hw : ω = -1 := by simpa using pow_half (k := 0) (scale2Root_prim h2).2
  obtain ⟨v, k1, k2⟩ := C43_multiples (k := 1) h1 (by norm_num) [1, 2] rfl g false
  obtain ⟨v', l1, l2⟩ := C43_multiples (k := 1) h1 (by norm_num) [1, 2] rfl (1 : Fr) false
  have e : v = v' := Option.some.inj (Except.ok.inj (k1.symm.trans l1))
  have ev : v.map (· • (1 : Fr)) = [3, -1] := by
    have : (.ok (some (v'.map (· • (1 : Fr)))) : Go (Option (List Fr))) = .ok (some ((List.range (2 ^ 1)).map fun i => ∑ j ∈ range (2 ^ 1), ω ^ (i * j) • ([1, 2] : List Fr).getD j 0)) := by
      rw [← l2, ← h3]; simp
    rw [e, Option.some.inj (Except.ok.inj this), hw]
    simp [sum_range_succ, List.range_succ]
    norm_num
  have ev' : v = [3, -1] := by simpa using ev
  exact ⟨fs, h1, by rw [k2, ev']; rfl, C45_extension_small fs [5] (by simp)⟩

end DyCAPS
