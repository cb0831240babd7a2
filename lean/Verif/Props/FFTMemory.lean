import Verif.Lemmas.FFTMemory

/-!
# C119: `InplaceFFT` in place

The name suggests that one slice can be given as input and output. The transform itself is `inplaceFFT` on a list, which C42 describes; `inplaceFFTMem` works on two slices of one memory, `vals` at address `v` and
`out` at address `o`.
-/

namespace DyCAPS

/-- **C119 (refuted).** With `out = vals`, for every length `2^k` with at least two values and in both directions, some values are not transformed: what is left in `out` differs from the transform. -/
theorem C119_refuted {s : ℕ} {fs : FFTSettings Fr} (h : newFFTSettings s = some fs) {k : ℕ} (h1 : 1 ≤ k) (hk : k ≤ s) (v : ℕ) (inv : Bool) :
    ∃ (mem mem' : ℕ → Fr) (out : List Fr), inplaceFFTMem fs v v (2 ^ k) inv mem = .ok (some mem') ∧ inplaceFFT fs (slice mem v (2 ^ k)) inv = .ok (some out) ∧ slice mem' v (2 ^ k) ≠ out := by
  obtain ⟨hs, w, -, ok⟩ := newFFTSettings_some h
  obtain ⟨rootz, w', hw', hr, e1, e2⟩ := inplaceFFTMem_eq ok hk inv
  refine ⟨fun a => if a = v + badIdx k then 1 else 0, _, _, e1 v v _, e2 v _, fun heq => ?_⟩
  refine fftMem_alias 64 k (o := v) h1 (by omega) (Nat.le_refl 1) hw' hr (fun j _ => ?_) (fun i hi => ?_) (mem := fun a => if a = v + badIdx k then 1 else 0)
  · simp
  · have hi' := congrArg (fun l => l.getD i 0) heq
    simp only [slice, getD_map_range _ _ _ _ hi] at hi'
    have hne : ((2 ^ k : ℕ) : Fr)⁻¹ ≠ 0 := inv_ne_zero (natCast_ne_zero_of_root hw' (by positivity))
    simp only [mul_one]
    cases inv
    · simpa using hi'
    · simp only [if_true] at hi'
      rw [(scaleMem_ok _ v (2 ^ k) _).1 i hi, mul_comm] at hi'
      exact mul_left_cancel₀ hne hi'

/-- **C119 (part).** If `vals` and `out` do not overlap, `out` holds the transform afterwards and everything else, `vals` included, is as before. -/
theorem C119_separate_partial {s : ℕ} {fs : FFTSettings Fr} (h : newFFTSettings s = some fs) {k : ℕ} (hk : k ≤ s) {v o : ℕ} (hd : v + 2 ^ k ≤ o ∨ o + 2 ^ k ≤ v) (inv : Bool) (mem : ℕ → Fr) :
    ∃ mem' : ℕ → Fr, inplaceFFTMem fs v o (2 ^ k) inv mem = .ok (some mem') ∧ inplaceFFT fs (slice mem v (2 ^ k)) inv = .ok (some (slice mem' o (2 ^ k))) ∧
      ∀ a, a < o ∨ o + 2 ^ k ≤ a → mem' a = mem a := by
  obtain ⟨hs, w, -, ok⟩ := newFFTSettings_some h
  obtain ⟨rootz, w', hw', hr, e1, e2⟩ := inplaceFFTMem_eq ok hk inv
  have hval := fftMem_ok 64 k (a := v) (st := 1) (o := o) mem (by omega) hw' hr (fun j hj i hi => by omega)
  refine ⟨_, e1 v o mem, ?_, fun a ha => ?_⟩
  · rw [e2 v mem]
    congr 2
    refine List.map_congr_left fun i hi => ?_
    have hi' : i < 2 ^ k := List.mem_range.1 hi
    cases inv
    · simp only [if_false, Bool.false_eq_true, one_mul]
      rw [hval i hi']
      simp only [mul_one]
    · simp only [if_true]
      rw [(scaleMem_ok _ o (2 ^ k) _).1 i hi', hval i hi', mul_comm]
      simp only [mul_one]
  · have hf := fftMem_frame rootz 64 v 1 (2 ^ (s - k)) o (2 ^ k) mem (b := a) fun i hi => by omega
    cases inv
    · simpa using hf
    · simp only [if_true]
      rw [(scaleMem_ok _ o (2 ^ k) _).2 a fun i hi => by omega, hf]

/-- **C119 (part).** A single value can be transformed in place. -/
theorem C119_one_partial {s : ℕ} {fs : FFTSettings Fr} (h : newFFTSettings s = some fs) (v : ℕ) (inv : Bool) (mem : ℕ → Fr) :
    inplaceFFTMem fs v v 1 inv mem = .ok (some mem) ∧ inplaceFFT fs (slice mem v 1) inv = .ok (some (slice mem v 1)) := by
  obtain ⟨hs, w, -, ok⟩ := newFFTSettings_some h
  obtain ⟨rootz, w', hw', hr, e1, e2⟩ := inplaceFFTMem_eq ok (Nat.zero_le s) inv
  have hu : fftMem 64 v 1 rootz (2 ^ (s - 0)) v (2 ^ 0) mem = mem := by
    rw [fftMem, if_pos (by norm_num)]
    unfold simpleFTMem
    rw [pow_zero, List.range_one, List.foldl_cons, List.foldl_nil, simpleFTCell_eq (w := w') (by norm_num) (by simpa using hw'.pow_eq_one) (by simpa using hr)]
    simp [dft]
  have hsc : scaleMem ((2 ^ 0 : ℕ) : Fr)⁻¹ v (2 ^ 0) mem = mem := by
    unfold scaleMem
    simp
  refine ⟨?_, ?_⟩
  · have := e1 v v mem
    rw [hu, hsc, ite_self] at this
    exact this
  · have := e2 v mem
    rw [pow_zero] at this
    rw [this]
    congr 2
    cases inv <;> simp [slice, dft]

/-- **C119 (part).** Wherever the slices lie, the call returns an error or panics for the same lengths as the transform on separate slices: an error above the width of the tables. -/
theorem C119_refuses_partial {s : ℕ} {fs : FFTSettings Fr} (h : newFFTSettings s = some fs) (v o n : ℕ) (inv : Bool) (mem : ℕ → Fr) :
    (inplaceFFTMem fs v o n inv mem).map Option.isSome = (inplaceFFT fs (slice mem v n) inv).map Option.isSome ∧ (2 ^ s < n → inplaceFFTMem fs v o n inv mem = .ok none) := by
  obtain ⟨hs, w, -, ok⟩ := newFFTSettings_some h
  have hl : (slice mem v n).length = n := by simp [slice]
  refine ⟨?_, fun hn => ?_⟩
  · by_cases h1 : n > fs.maxWidth
    · unfold inplaceFFTMem inplaceFFT
      simp only [hl, if_pos h1]
      rfl
    by_cases h2 : (!isPowerOfTwo n) = true
    · unfold inplaceFFTMem inplaceFFT
      simp only [hl, if_neg h1, if_pos h2]
      rfl
    by_cases h3 : n = 0
    · unfold inplaceFFTMem inplaceFFT
      simp only [hl, if_neg h1, if_neg h2, if_pos h3]
      rfl
    obtain ⟨k, rfl⟩ : ∃ k, n = 2 ^ k := (Nat.and_sub_one_eq_zero_iff_isPowerOfTwo h3).1 (by simpa [isPowerOfTwo] using h2)
    have hk : k ≤ s := by
      rw [ok.width] at h1
      exact (Nat.pow_le_pow_iff_right (by norm_num)).1 (not_lt.1 h1)
    obtain ⟨rootz, w', hw', hr, e1, e2⟩ := inplaceFFTMem_eq ok hk inv
    rw [e1, e2]
    rfl
  · unfold inplaceFFTMem
    rw [if_pos (by rw [ok.width]; exact hn)]

/-- Two values 3 and 5 transformed in place: 8 and 3 instead of 8 and -2; with another output slice 8 and -2, and the input stays. -/
example : newFFTSettings 1 = some ⟨2, [1, -1, 1], [1, -1, 1]⟩ ∧
    ((inplaceFFTMem (K := Fr) ⟨2, [1, -1, 1], [1, -1, 1]⟩ 0 0 2 false fun a => if a = 0 then 3 else if a = 1 then 5 else 0).map fun r => r.map fun m => slice m 0 2) = .ok (some [8, 3]) ∧
    ((inplaceFFTMem (K := Fr) ⟨2, [1, -1, 1], [1, -1, 1]⟩ 0 2 2 false fun a => if a = 0 then 3 else if a = 1 then 5 else 0).map fun r => r.map fun m => slice m 0 4) = .ok (some [3, 5, 8, -2]) := by
  refine ⟨?_, by decide +kernel, by decide +kernel⟩
  obtain ⟨⟨mw, ex, re⟩, w, h1, -, ok⟩ := newFFTSettings_ok (s := 1) (by norm_num)
  have hw : w = -1 := by simpa using pow_half (k := 0) ok.prim
  have h2 : mw = 2 := by simpa using ok.width
  have h3 : ex = [1, -1, 1] := by
    have := ok.exp
    simp only at this
    rw [this, hw]
    simp [List.range_succ]
  have h4 : re = [1, -1, 1] := by
    have := ok.rev
    simp only at this
    rw [this, h3]
    rfl
  rw [h1, h2, h3, h4]

/-- Eight values at 8 to 15 transformed into the places 0 to 7: the result is the transform, and the input is still there; one value can be transformed in place. -/
example (mem : ℕ → Fr) : ∃ fs mem', newFFTSettings 5 = some fs ∧ inplaceFFTMem fs 8 0 8 false mem = .ok (some mem') ∧ inplaceFFT fs (slice mem 8 8) false = .ok (some (slice mem' 0 8)) ∧
    (∀ a, 8 ≤ a → mem' a = mem a) ∧ inplaceFFTMem fs 3 3 1 true mem = .ok (some mem) := by
  obtain ⟨fs, w, h1, -⟩ := newFFTSettings_ok (s := 5) (by norm_num)
  obtain ⟨mem', k1, k2, k3⟩ := C119_separate_partial h1 (k := 3) (by norm_num) (v := 8) (o := 0) (by norm_num) false mem
  exact ⟨fs, mem', h1, k1, k2, fun a ha => k3 a (Or.inr ha), (C119_one_partial h1 3 true mem).1⟩

end DyCAPS
