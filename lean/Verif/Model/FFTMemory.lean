import Mathlib.Logic.Function.Basic
import Verif.Model.FFT

/-!
# The FFT on slices of one memory

`Model/FFT` takes `vals` and `out` of `InplaceFFT` as different slices. Here both are slices of one memory of scalars, so that they can overlap: `vals` starts at address `v` and `out` at address `o`, and both have
the length `n`. The table of roots is never written and stays a list. Index checks are left out: for the lengths that `InplaceFFT` lets through, all indices are in range (`Lemmas/FFT`); a root beyond the table
is 0.
-/

namespace DyCAPS

section
variable {K : Type} [Field K] [DecidableEq K]

/-- The value computed for `out[i]` in `simpleFT`, fft_fr.go:17-28, from the present content of the memory. `a` is the address of `vals[valsOffset]`. -/
def simpleFTCell (mem : ℕ → K) (a valsStride : ℕ) (roots : List K) (rootsStride l i : ℕ) : K :=
  (List.range' 1 (l - 1)).foldl (fun last j => last + mem (a + j * valsStride) * roots.getD ((i * j) % l * rootsStride) 0) (mem a * roots.getD 0 0)

/-- `simpleFT`, fft_fr.go:11-31: `out[i]` is written before the values for `out[i+1]` are read. -/
def simpleFTMem (a valsStride : ℕ) (roots : List K) (rootsStride o l : ℕ) (mem : ℕ → K) : ℕ → K :=
  (List.range l).foldl (fun mem i => Function.update mem (o + i) (simpleFTCell mem a valsStride roots rootsStride l i)) mem

/-- Round `i` of the last loop of `_fft`, fft_fr.go:47-55. -/
def butterfly (roots : List K) (rootsStride o half : ℕ) (mem : ℕ → K) (i : ℕ) : ℕ → K :=
  let x := mem (o + i)
  let y := mem (o + (i + half))
  let yTimesRoot := y * roots.getD (i * rootsStride) 0
  Function.update (Function.update mem (o + i) (x + yTimesRoot)) (o + (i + half)) (x - yTimesRoot)

/-- `_fft`, fft_fr.go:33-56; `out` is the slice of length `l` at address `o`. The first argument bounds the depth of the recursion. -/
def fftMem : ℕ → ℕ → ℕ → List K → ℕ → ℕ → ℕ → (ℕ → K) → ℕ → K
  | 0, _, _, _, _, _, _, mem => mem
  | fuel + 1, a, valsStride, roots, rootsStride, o, l, mem =>
    if l ≤ 4 then simpleFTMem a valsStride roots rootsStride o l mem
    else
      let half := l / 2
      let mem1 := fftMem fuel a (valsStride * 2) roots (rootsStride * 2) o half mem
      let mem2 := fftMem fuel (a + valsStride) (valsStride * 2) roots (rootsStride * 2) (o + half) (l - half) mem1
      (List.range half).foldl (butterfly roots rootsStride o half) mem2

/-- The loop over `out` after an inverse transform, fft_fr.go:96-99. -/
def scaleMem (c : K) (o n : ℕ) (mem : ℕ → K) : ℕ → K :=
  (List.range n).foldl (fun mem i => Function.update mem (o + i) (mem (o + i) * c)) mem

/-- `InplaceFFT(vals, out, inv)`, fft_fr.go:79-109; the result is the memory afterwards. -/
def inplaceFFTMem (fs : FFTSettings K) (v o n : ℕ) (inv : Bool) (mem : ℕ → K) : Go (Option (ℕ → K)) :=
  if n > fs.maxWidth then .ok none
  else if !isPowerOfTwo n then .ok none
  else if n = 0 then .error .panic
  else do
    let rootz ← sliceTo (if inv then fs.reversed else fs.expanded) fs.maxWidth
    let mem' := fftMem 64 v 1 rootz (fs.maxWidth / n) o n mem
    pure (some (if inv then scaleMem (n : K)⁻¹ o n mem' else mem'))

end

end DyCAPS
