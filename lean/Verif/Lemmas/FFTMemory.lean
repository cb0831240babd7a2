import Verif.Lemmas.FFT
import Verif.Model.FFTMemory
import Verif.Spec.FFTMemory

/-! # Lemmas for C119: the FFT on overlapping slices -/

open Finset

namespace DyCAPS

section
variable {K : Type} [Field K]

theorem simpleFTCell_eq {w : K} {roots : List K} {rst l : ℕ} (hl : 0 < l) (hw : w ^ l = 1) (hr : ∀ m < l, roots[m * rst]? = some (w ^ m)) (mem : ℕ → K) (a st i : ℕ) :
    simpleFTCell mem a st roots rst l i = dft w l (fun j => mem (a + j * st)) i := by
  unfold simpleFTCell dft
  have h0 : mem a * roots.getD 0 0 = (fun j => w ^ (i * j) • mem (a + j * st)) 0 := by
    have := hr 0 hl
    rw [zero_mul, pow_zero] at this
    simp [List.getD, this]
  rw [h0]
  have hf : ∀ (L : List ℕ) (b : K), L.foldl (fun last j => last + mem (a + j * st) * roots.getD ((i * j) % l * rst) 0) b =
      L.foldl (fun b j => b + (fun j => w ^ (i * j) • mem (a + j * st)) j) b := by
    intro L
    induction L with
    | nil => intro b; rfl
    | cons j L ih =>
      intro b
      rw [List.foldl_cons, List.foldl_cons, ih]
      congr 2
      have := hr _ (Nat.mod_lt (i * j) hl)
      have e : w ^ (i * j % l) = w ^ (i * j) := by
        conv_rhs => rw [← Nat.div_add_mod (i * j) l, pow_add, pow_mul, hw, one_pow, one_mul]
      simp only [List.getD, this, Option.getD_some, smul_eq_mul]
      rw [e, mul_comm]
  rw [hf, foldl_add_range', Nat.sub_add_cancel hl]

omit [Field K] in
/-- A loop that writes `out[i]` in round `i` from what it finds: nothing else changes, and later rounds leave `out[i]` alone. -/
theorem writeLoop (f : (ℕ → K) → ℕ → K) (o : ℕ) (mem : ℕ → K) (n : ℕ) :
    (∀ a, (∀ i < n, a ≠ o + i) → (List.range n).foldl (fun mem i => Function.update mem (o + i) (f mem i)) mem a = mem a) ∧
    ∀ i < n, (List.range n).foldl (fun mem i => Function.update mem (o + i) (f mem i)) mem (o + i) =
      f ((List.range i).foldl (fun mem i => Function.update mem (o + i) (f mem i)) mem) i := by
  induction n with
  | zero => exact ⟨fun _ _ => rfl, fun i hi => absurd hi (by omega)⟩
  | succ n ih =>
    constructor
    · intro a ha
      rw [List.range_succ, List.foldl_append, List.foldl_cons, List.foldl_nil, Function.update_of_ne (ha n (by omega))]
      exact ih.1 a fun i hi => ha i (by omega)
    · intro i hi
      rw [List.range_succ, List.foldl_append, List.foldl_cons, List.foldl_nil]
      rcases Nat.lt_succ_iff_lt_or_eq.1 hi with h | rfl
      · rw [Function.update_of_ne (by omega)]
        exact ih.2 i h
      · rw [Function.update_self]

theorem simpleFTMem_frame (a st : ℕ) (roots : List K) (rst o l : ℕ) (mem : ℕ → K) {b : ℕ} (hb : ∀ i < l, b ≠ o + i) : simpleFTMem a st roots rst o l mem b = mem b :=
  (writeLoop _ o mem l).1 b hb

theorem simpleFTMem_ok {w : K} {roots : List K} {rst l : ℕ} (hl : 0 < l) (hw : w ^ l = 1) (hr : ∀ m < l, roots[m * rst]? = some (w ^ m)) (mem : ℕ → K) (a st o : ℕ)
    (hd : ∀ j < l, ∀ i < l, a + j * st ≠ o + i) {i : ℕ} (hi : i < l) : simpleFTMem a st roots rst o l mem (o + i) = dft w l (fun j => mem (a + j * st)) i := by
  unfold simpleFTMem
  rw [(writeLoop _ o mem l).2 i hi, simpleFTCell_eq hl hw hr]
  refine dft_congr (fun j hj => ?_) i
  exact (writeLoop _ o mem i).1 _ fun i' hi' => hd j hj i' (by omega)

/-- The loop of butterflies. -/
theorem butterflies (roots : List K) (rst o half : ℕ) (mem : ℕ → K) (n : ℕ) (hn : n ≤ half) :
    (∀ a, (∀ i < n, a ≠ o + i ∧ a ≠ o + (i + half)) → (List.range n).foldl (butterfly roots rst o half) mem a = mem a) ∧
    ∀ i < n, (List.range n).foldl (butterfly roots rst o half) mem (o + i) = mem (o + i) + mem (o + (i + half)) * roots.getD (i * rst) 0 ∧
      (List.range n).foldl (butterfly roots rst o half) mem (o + (i + half)) = mem (o + i) - mem (o + (i + half)) * roots.getD (i * rst) 0 := by
  induction n with
  | zero => exact ⟨fun _ _ => rfl, fun i hi => absurd hi (by omega)⟩
  | succ n ih =>
    obtain ⟨ih1, ih2⟩ := ih (by omega)
    constructor
    · intro a ha
      rw [List.range_succ, List.foldl_append, List.foldl_cons, List.foldl_nil, butterfly, Function.update_of_ne (ha n (by omega)).2, Function.update_of_ne (ha n (by omega)).1]
      exact ih1 a fun i hi => ha i (by omega)
    · intro i hi
      rw [List.range_succ, List.foldl_append, List.foldl_cons, List.foldl_nil]
      rcases Nat.lt_succ_iff_lt_or_eq.1 hi with h | rfl
      · rw [butterfly, Function.update_of_ne (by omega), Function.update_of_ne (by omega), Function.update_of_ne (by omega), Function.update_of_ne (by omega)]
        exact ih2 i h
      · rw [butterfly, Function.update_of_ne (by omega), Function.update_self, Function.update_self, ih1 _ (fun j hj => by omega), ih1 _ (fun j hj => by omega)]
        exact ⟨rfl, rfl⟩

/-- Only `out` is written. -/
theorem fftMem_frame (roots : List K) : ∀ (fuel a st rst o l : ℕ) (mem : ℕ → K) {b : ℕ}, (∀ i < l, b ≠ o + i) → fftMem fuel a st roots rst o l mem b = mem b
  | 0, _, _, _, _, _, _, _, _ => rfl
  | fuel + 1, a, st, rst, o, l, mem, b, hb => by
    rw [fftMem]
    split
    · exact simpleFTMem_frame _ _ _ _ _ _ _ hb
    · simp only
      rw [(butterflies _ _ _ _ _ _ (Nat.le_refl _)).1 b fun i hi => ⟨hb i (by omega), hb _ (by omega)⟩, fftMem_frame roots fuel _ _ _ _ _ _ fun i hi => ?_,
        fftMem_frame roots fuel _ _ _ _ _ _ fun i hi => hb i (by omega)]
      have := hb (l / 2 + i) (by omega)
      omega

/-- The two halves after the recursive calls, and what the butterflies make of them. -/
theorem fftMem_split (roots : List K) (fuel a st rst o k : ℕ) (mem : ℕ → K) (hk : ¬ 2 ^ (k + 1) ≤ 4) {i : ℕ} (hi : i < 2 ^ k) :
    let mem1 := fftMem fuel a (st * 2) roots (rst * 2) o (2 ^ k) mem
    let mem2 := fftMem fuel (a + st) (st * 2) roots (rst * 2) (o + 2 ^ k) (2 ^ k) mem1
    fftMem (fuel + 1) a st roots rst o (2 ^ (k + 1)) mem (o + i) = mem1 (o + i) + mem2 (o + 2 ^ k + i) * roots.getD (i * rst) 0 ∧
    fftMem (fuel + 1) a st roots rst o (2 ^ (k + 1)) mem (o + (i + 2 ^ k)) = mem1 (o + i) - mem2 (o + 2 ^ k + i) * roots.getD (i * rst) 0 := by
  intro mem1 mem2
  have hhalf : 2 ^ (k + 1) / 2 = 2 ^ k := by rw [pow_succ]; simp
  have hhalf' : 2 ^ (k + 1) - 2 ^ k = 2 ^ k := by rw [pow_succ]; omega
  have h := (butterflies roots rst o (2 ^ k) mem2 (2 ^ k) (Nat.le_refl _)).2 i hi
  have hf : mem2 (o + i) = mem1 (o + i) := fftMem_frame roots fuel _ _ _ _ _ _ fun j hj => by omega
  rw [hf, show o + (i + 2 ^ k) = o + 2 ^ k + i by omega] at h
  rw [fftMem, if_neg hk]
  simp only [hhalf, hhalf']
  rw [show o + (i + 2 ^ k) = o + 2 ^ k + i by omega]
  exact h

variable {roots : List K}

theorem roots_even {w : K} {k rst : ℕ} (hr : ∀ m < 2 ^ (k + 1), roots[m * rst]? = some (w ^ m)) : ∀ m < 2 ^ k, roots[m * (rst * 2)]? = some ((w ^ 2) ^ m) := by
  intro m hm
  have hle : (2 : ℕ) ^ (k + 1) = 2 * 2 ^ k := by rw [pow_succ, mul_comm]
  have := hr (m * 2) (by omega)
  rw [show m * (rst * 2) = m * 2 * rst by ring, this, ← pow_mul, mul_comm 2 m]

/-- If nothing that is read is written, `_fft` transforms. -/
theorem fftMem_ok : ∀ (fuel k : ℕ) {w : K} {a st rst o : ℕ} (mem : ℕ → K), k < fuel → IsPrimitiveRoot w (2 ^ k) → (∀ m < 2 ^ k, roots[m * rst]? = some (w ^ m)) →
    (∀ j < 2 ^ k, ∀ i < 2 ^ k, a + j * st ≠ o + i) → ∀ i < 2 ^ k, fftMem fuel a st roots rst o (2 ^ k) mem (o + i) = dft w (2 ^ k) (fun j => mem (a + j * st)) i
  | 0, _, _, _, _, _, _, _, h, _, _, _ => absurd h (Nat.not_lt_zero _)
  | fuel + 1, k, w, a, st, rst, o, mem, hk, hw, hr, hd => by
    intro i hi
    by_cases hlt : 2 ^ k ≤ 4
    · rw [fftMem, if_pos hlt]
      exact simpleFTMem_ok (by positivity) hw.pow_eq_one hr mem a st o hd hi
    · obtain ⟨k, rfl⟩ : ∃ k', k = k' + 1 := ⟨k - 1, by rcases k with _ | k <;> simp at hlt ⊢⟩
      have hw2 : IsPrimitiveRoot (w ^ 2) (2 ^ k) := hw.pow (by positivity) (by rw [pow_succ, mul_comm])
      have hle : (2 : ℕ) ^ (k + 1) = 2 * 2 ^ k := by rw [pow_succ, mul_comm]
      set v : ℕ → K := fun j => mem (a + j * st) with hv
      have key : ∀ i < 2 ^ k, fftMem fuel a (st * 2) roots (rst * 2) o (2 ^ k) mem (o + i) = dft (w ^ 2) (2 ^ k) (fun j => v (2 * j)) i ∧
          fftMem fuel (a + st) (st * 2) roots (rst * 2) (o + 2 ^ k) (2 ^ k) (fftMem fuel a (st * 2) roots (rst * 2) o (2 ^ k) mem) (o + 2 ^ k + i) =
            dft (w ^ 2) (2 ^ k) (fun j => v (2 * j + 1)) i ∧ roots.getD (i * rst) 0 = w ^ i := by
        intro i hi
        refine ⟨?_, ?_, by simp [List.getD, hr i (by omega)]⟩
        · rw [fftMem_ok fuel k mem (by omega) hw2 (roots_even hr) (fun j hj i hi => by
            have := hd (j * 2) (by omega) i (by omega)
            rwa [show a + j * (st * 2) = a + j * 2 * st by ring]) i hi]
          refine dft_congr (fun j _ => ?_) i
          rw [hv]; simp only; congr 1; ring
        · rw [fftMem_ok fuel k _ (by omega) hw2 (roots_even hr) (fun j hj i hi => by
            have := hd (j * 2 + 1) (by omega) (2 ^ k + i) (by omega)
            rw [show a + st + j * (st * 2) = a + (j * 2 + 1) * st by ring]
            omega) i hi]
          refine dft_congr (fun j hj => ?_) i
          rw [fftMem_frame roots fuel _ _ _ _ _ _ fun i' hi' => ?_]
          · rw [hv]; simp only; congr 1; ring
          · have := hd (j * 2 + 1) (by omega) i' (by omega)
            rwa [show a + st + j * (st * 2) = a + (j * 2 + 1) * st by ring]
      by_cases hih : i < 2 ^ k
      · obtain ⟨h1, h2, h3⟩ := key i hih
        rw [(fftMem_split roots fuel a st rst o k mem hlt hih).1, h1, h2, h3, hle, dft_split, smul_eq_mul, mul_comm (w ^ i)]
      · obtain ⟨i', rfl⟩ : ∃ i', i = i' + 2 ^ k := ⟨i - 2 ^ k, by omega⟩
        obtain ⟨h1, h2, h3⟩ := key i' (by omega)
        rw [(fftMem_split roots fuel a st rst o k mem hlt (by omega)).2, h1, h2, h3, hle, dft_split, pow_add, pow_half hw, dft_period _ _ hw2.pow_eq_one,
          dft_period _ _ hw2.pow_eq_one, mul_neg_one, neg_smul, smul_eq_mul, mul_comm (w ^ i'), sub_eq_add_neg]

/-- The position of the value that goes wrong. -/
def badIdx (k : ℕ) : ℕ := if k = 1 then 1 else 2 ^ (k - 2)

/-- With `out = vals`, a value 1 at `badIdx k` and zeros elsewhere are not transformed. -/
theorem fftMem_alias : ∀ (fuel k : ℕ) {w : K} {st rst o : ℕ} (mem : ℕ → K), 1 ≤ k → k < fuel → 1 ≤ st → IsPrimitiveRoot w (2 ^ k) → (∀ m < 2 ^ k, roots[m * rst]? = some (w ^ m)) →
    (∀ j < 2 ^ k, mem (o + j * st) = if j = badIdx k then 1 else 0) →
    ¬ ∀ i < 2 ^ k, fftMem fuel o st roots rst o (2 ^ k) mem (o + i) = dft w (2 ^ k) (fun j => mem (o + j * st)) i
  | 0, _, _, _, _, _, _, _, h, _, _, _, _ => absurd h (Nat.not_lt_zero _)
  | fuel + 1, k, w, st, rst, o, mem, h1, hk, hst, hw, hr, hm => by
    intro hall
    by_cases hlt : 2 ^ k ≤ 4
    · have h1k : 1 < 2 ^ k := Nat.one_lt_two_pow (by omega)
      have h := hall 1 h1k
      rw [fftMem, if_pos hlt] at h
      unfold simpleFTMem at h
      rw [(writeLoop _ o mem _).2 1 h1k] at h
      simp only [List.range_one, List.foldl_cons, List.foldl_nil, Nat.add_zero] at h
      rw [simpleFTCell_eq (by positivity) hw.pow_eq_one hr, simpleFTCell_eq (by positivity) hw.pow_eq_one hr] at h
      obtain ⟨q, hq⟩ : ∃ q, 2 ^ k = q + 1 := ⟨2 ^ k - 1, by omega⟩
      have hbad : badIdx k < 2 ^ k ∧ badIdx k ≠ 0 := by
        unfold badIdx
        split
        · omega
        · exact ⟨Nat.pow_lt_pow_right (by norm_num) (by omega), by positivity⟩
      have hsum : dft w (2 ^ k) (fun j => mem (o + j * st)) 0 = 1 := by
        unfold dft
        rw [Finset.sum_eq_single_of_mem (badIdx k) (Finset.mem_range.2 hbad.1)]
        · beta_reduce
          rw [hm _ hbad.1, if_pos rfl, zero_mul, pow_zero, smul_eq_mul, one_mul]
        · intro j hj hne
          beta_reduce
          rw [hm _ (Finset.mem_range.1 hj), if_neg hne, smul_zero]
      rw [hsum] at h
      unfold dft at h
      rw [hq, Finset.sum_range_succ', Finset.sum_range_succ'] at h
      have hz : mem (o + 0 * st) = 0 := by rw [hm 0 (by omega), if_neg (by omega)]
      simp only [zero_mul, Nat.add_zero, Function.update_self] at h hz
      rw [hz] at h
      have e : ∀ j ∈ Finset.range q, w ^ (1 * (j + 1)) • Function.update mem o 1 (o + (j + 1) * st) = w ^ (1 * (j + 1)) • mem (o + (j + 1) * st) := by
        intro j _
        rw [Function.update_of_ne]
        have : 1 ≤ (j + 1) * st := Nat.one_le_iff_ne_zero.2 (Nat.mul_ne_zero (by omega) (by omega))
        omega
      rw [Finset.sum_congr rfl e] at h
      simp at h
    · obtain ⟨k, rfl⟩ : ∃ k', k = k' + 1 := ⟨k - 1, by omega⟩
      have hk2 : 2 ≤ k := by
        by_contra hc
        have : k = 0 ∨ k = 1 := by omega
        rcases this with rfl | rfl <;> simp at hlt
      have hw2 : IsPrimitiveRoot (w ^ 2) (2 ^ k) := hw.pow (by positivity) (by rw [pow_succ, mul_comm])
      have hle : (2 : ℕ) ^ (k + 1) = 2 * 2 ^ k := by rw [pow_succ, mul_comm]
      have hb : badIdx (k + 1) = 2 * badIdx k := by
        unfold badIdx
        rw [if_neg (by omega), if_neg (by omega), ← pow_succ']
        congr 1
        omega
      have h20 : (2 : K) ≠ 0 := by
        have := natCast_ne_zero_of_root hw (by positivity)
        intro h2
        apply this
        rw [pow_succ, Nat.cast_mul, Nat.cast_ofNat, h2, mul_zero]
      refine fftMem_alias fuel k (w := w ^ 2) (st := st * 2) (rst := rst * 2) (o := o) mem (by omega) (by omega) (by omega) hw2 (roots_even hr) (fun j hj => ?_) (fun i hi => ?_)
      · rw [show o + j * (st * 2) = o + 2 * j * st by ring, hm (2 * j) (by omega), hb]
        simp only [Nat.mul_right_inj (show (2 : ℕ) ≠ 0 by norm_num)]
      · obtain ⟨e1, e2⟩ := fftMem_split roots fuel o st rst o k mem hlt hi
        rw [hall i (by omega)] at e1
        rw [hall (i + 2 ^ k) (by omega)] at e2
        have hs := congrArg₂ (· + ·) e1 e2
        simp only [hle, dft_split, pow_add, pow_half hw, dft_period _ _ hw2.pow_eq_one, mul_neg_one, neg_smul] at hs
        have : (2 : K) * dft (w ^ 2) (2 ^ k) (fun j => mem (o + 2 * j * st)) i = 2 * fftMem fuel o (st * 2) roots (rst * 2) o (2 ^ k) mem (o + i) := by
          linear_combination hs
        rw [← mul_left_cancel₀ h20 this]
        refine dft_congr (fun j _ => ?_) i
        congr 1; ring

theorem scaleMem_ok (c : K) (o n : ℕ) (mem : ℕ → K) : (∀ i < n, scaleMem c o n mem (o + i) = mem (o + i) * c) ∧ ∀ a, (∀ i < n, a ≠ o + i) → scaleMem c o n mem a = mem a := by
  have h := writeLoop (fun mem i => mem (o + i) * c) o mem n
  refine ⟨fun i hi => ?_, h.1⟩
  unfold scaleMem
  rw [h.2 i hi, (writeLoop (fun mem i => mem (o + i) * c) o mem i).1 _ fun i' hi' => by omega]

end

/-- What `InplaceFFT` computes, in terms of `_fft`. -/
theorem inplaceFFTMem_eq {K : Type} [Field K] [DecidableEq K] {fs : FFTSettings K} {s : ℕ} {w : K} (h : fs.Ok s w) {k : ℕ} (hk : k ≤ s) (inv : Bool) : ∃ (rootz : List K) (w' : K),
    IsPrimitiveRoot w' (2 ^ k) ∧ (∀ m < 2 ^ k, rootz[m * 2 ^ (s - k)]? = some (w' ^ m)) ∧
    (∀ (v o : ℕ) (mem : ℕ → K), inplaceFFTMem fs v o (2 ^ k) inv mem = .ok (some (if inv then scaleMem ((2 ^ k : ℕ) : K)⁻¹ o (2 ^ k) (fftMem 64 v 1 rootz (2 ^ (s - k)) o (2 ^ k) mem)
      else fftMem 64 v 1 rootz (2 ^ (s - k)) o (2 ^ k) mem))) ∧
    ∀ (v : ℕ) (mem : ℕ → K), inplaceFFT fs (slice mem v (2 ^ k)) inv = .ok (some ((List.range (2 ^ k)).map fun i =>
      (if inv then ((2 ^ k : ℕ) : K)⁻¹ else 1) * dft w' (2 ^ k) (fun j => mem (v + j)) i)) := by
  obtain ⟨rootz, h1, h2⟩ := h.rootz hk inv
  have hle : 2 ^ k ≤ 2 ^ s := Nat.pow_le_pow_right (by norm_num) hk
  have hdiv : fs.maxWidth / 2 ^ k = 2 ^ (s - k) := by rw [h.width, Nat.pow_div hk (by norm_num)]
  rw [hdiv] at h2
  refine ⟨rootz, if inv then (w ^ 2 ^ (s - k))⁻¹ else w ^ 2 ^ (s - k), ?_, h2, fun v o mem => ?_, fun v mem => ?_⟩
  · cases inv
    · exact h.sub_root hk
    · exact (h.sub_root hk).inv
  · unfold inplaceFFTMem
    rw [if_neg (by rw [h.width]; omega), isPowerOfTwo_pow, if_neg (by simp), if_neg (by positivity), h1, hdiv]
    rfl
  · rw [inplaceFFT_eq, fftG1_ok h hk _ (by simp [slice]) inv]
    congr 2
    refine List.map_congr_left fun i _ => ?_
    have hc : ∀ w'' : K, dft w'' (2 ^ k) (fun j => (slice mem v (2 ^ k)).getD j 0) i = dft w'' (2 ^ k) (fun j => mem (v + j)) i := fun w'' =>
      dft_congr (fun j hj => by rw [slice, getD_map_range _ _ _ _ hj]) i
    cases inv
    · rw [ftOf, if_neg (by simp), if_neg (by simp), if_neg (by simp), hc, one_mul]
    · rw [ftOf, if_pos rfl, if_pos rfl, if_pos rfl, hc, smul_eq_mul]

end DyCAPS
