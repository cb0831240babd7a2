import Mathlib.Algebra.Module.Defs
import Mathlib.Data.Nat.Size
import Verif.Model.Poly
import Verif.Model.Field

/-!
# The FFT library

`internal/polycommit/fft.go`, `fft_fr.go`, `fft_g1.go`, `das_extension.go` and `EvaluatePolyInEvaluationForm` (`internal/bls/globals.go`).

Lengths, strides and offsets are natural numbers (all are at most 2^33 here, so the `uint64` of the code do not overflow). A slice that a function fills completely is its return value; the recursive calls on
`out[:half]` and `out[half:]` return the two halves. `vals` and `out` are different slices in all calls. A returned Go error is `none`, a panic is an `Except.error`.
-/

namespace DyCAPS

/-- `l[:n]`; beyond the length (equal to the capacity here) it panics. Used at fft_fr.go:79-109 and in the other files of internal/polycommit. -/
def sliceTo {α : Type*} (l : List α) (n : ℕ) : Go (List α) := if n ≤ l.length then .ok (l.take n) else .error .panic

/-- `nextPowOf2`, fft.go:15-20; `bits.Len64` is the binary length. -/
def nextPowOf2 (v : ℕ) : ℕ := if v = 0 then 1 else 2 ^ Nat.size (v - 1)

/-- `IsPowerOfTwo`, internal/bls/globals.go:75-77. For `v = 0` the subtraction wraps around, and `0 & (2^64-1) = 0` as well. -/
def isPowerOfTwo (v : ℕ) : Bool := v &&& (v - 1) == 0

/-- `FFTSettings`, fft.go:38-46. -/
structure FFTSettings (K : Type*) where
  maxWidth : ℕ
  expanded : List K
  reversed : List K

section
variable {K : Type*} [Field K] [DecidableEq K]

/-- The loop of `expandRootOfUnity`, fft.go:29-34: `rootz` so far and its last entry. The first argument bounds the number of rounds. -/
def expandLoop (root : K) : ℕ → List K → K → Option (List K)
  | 0, _, _ => none
  | fuel + 1, rootz, last => if last = 1 then some rootz else expandLoop root fuel (rootz ++ [last * root]) (last * root)

end

/-- `expandRootOfUnity`, fft.go:25-36. The loop ends when a power is 1; if this has not happened after `r` rounds it never does, and the result is `none`. -/
def expandRootOfUnity (root : Fr) : Option (List Fr) := expandLoop root frModulus [1, root] root

/-- `NewFFTSettings`, fft.go:48-65. `none`: the table has no entry (panic), or the loop does not end. The swaps of the second loop reverse the list. -/
def newFFTSettings (maxScale : ℕ) : Option (FFTSettings Fr) := do
  let root ← scale2Root maxScale
  let rootz ← expandRootOfUnity root
  pure ⟨2 ^ maxScale, rootz, rootz.reverse⟩

section
variable {K : Type} [Field K] [DecidableEq K]

/-- `simpleFT`, fft_fr.go:11-31; `l` is `len(out)`. -/
def simpleFT (vals : List K) (valsOffset valsStride : ℕ) (roots : List K) (rootsStride l : ℕ) : Go (List K) :=
  (List.range l).mapM fun i => do
    let jv ← idx vals valsOffset
    let r ← idx roots 0
    (List.range' 1 (l - 1)).foldlM (fun last j => do
      let jv ← idx vals (valsOffset + j * valsStride)
      let r ← idx roots ((i * j) % l * rootsStride)
      pure (last + jv * r)) (jv * r)

/-- `_fft`, fft_fr.go:33-56; `l` is `len(out)`. The first argument bounds the depth of the recursion (64 halvings leave nothing of a `uint64`). -/
def fftRec : ℕ → List K → ℕ → ℕ → List K → ℕ → ℕ → Go (List K)
  | 0, _, _, _, _, _, _ => .error .panic
  | fuel + 1, vals, valsOffset, valsStride, roots, rootsStride, l =>
    if l ≤ 4 then simpleFT vals valsOffset valsStride roots rootsStride l
    else do
      let half := l / 2
      let left ← fftRec fuel vals valsOffset (valsStride * 2) roots (rootsStride * 2) half
      let right ← fftRec fuel vals (valsOffset + valsStride) (valsStride * 2) roots (rootsStride * 2) (l - half)
      let pairs ← (List.range half).mapM fun i => do
        let x ← idx left i
        let y ← idx right i
        let root ← idx roots (i * rootsStride)
        pure (x + y * root, x - y * root)
      pure (pairs.map Prod.fst ++ pairs.map Prod.snd ++ right.drop half)

/-- `InplaceFFT`, fft_fr.go:79-108; the result is what is written to `out`, which has the length of `vals`. With no values `MaxWidth / n` panics. -/
def inplaceFFT (fs : FFTSettings K) (vals : List K) (inv : Bool) : Go (Option (List K)) :=
  let n := vals.length
  if n > fs.maxWidth then .ok none
  else if !isPowerOfTwo n then .ok none
  else if n = 0 then .error .panic
  else do
    let rootz ← sliceTo (if inv then fs.reversed else fs.expanded) fs.maxWidth
    let out ← fftRec 64 vals 0 1 rootz (fs.maxWidth / n) n
    pure (some (if inv then out.map fun v => v * (n : K)⁻¹ else out))

/-- `FFT`, fft_fr.go:58-77. -/
def fft (fs : FFTSettings K) (vals : List K) (inv : Bool) : Go (Option (List K)) :=
  if vals.length > fs.maxWidth then .ok none
  else inplaceFFT fs (vals ++ List.replicate (nextPowOf2 vals.length - vals.length) 0) inv

/-- The caller panics if the FFT returns an error. fk20_single.go:44-90. -/
def fftOrPanic (r : Go (Option (List K))) : Go (List K) := do
  match ← r with
  | some out => pure out
  | none => .error .panic

end

section
variable {K G : Type} [Field K] [DecidableEq K] [AddCommGroup G] [Module K G]

/-- `simpleFTG1`, fft_g1.go:14-34. -/
def simpleFTG1 (vals : List G) (valsOffset valsStride : ℕ) (roots : List K) (rootsStride l : ℕ) : Go (List G) :=
  (List.range l).mapM fun i => do
    let jv ← idx vals valsOffset
    let r ← idx roots 0
    (List.range' 1 (l - 1)).foldlM (fun last j => do
      let jv ← idx vals (valsOffset + j * valsStride)
      let r ← idx roots ((i * j) % l * rootsStride)
      pure (last + r • jv)) (r • jv)

/-- `_fftG1`, fft_g1.go:36-59. -/
def fftG1Rec : ℕ → List G → ℕ → ℕ → List K → ℕ → ℕ → Go (List G)
  | 0, _, _, _, _, _, _ => .error .panic
  | fuel + 1, vals, valsOffset, valsStride, roots, rootsStride, l =>
    if l ≤ 4 then simpleFTG1 vals valsOffset valsStride roots rootsStride l
    else do
      let half := l / 2
      let left ← fftG1Rec fuel vals valsOffset (valsStride * 2) roots (rootsStride * 2) half
      let right ← fftG1Rec fuel vals (valsOffset + valsStride) (valsStride * 2) roots (rootsStride * 2) (l - half)
      let pairs ← (List.range half).mapM fun i => do
        let x ← idx left i
        let y ← idx right i
        let root ← idx roots (i * rootsStride)
        pure (x + root • y, x - root • y)
      pure (pairs.map Prod.fst ++ pairs.map Prod.snd ++ right.drop half)

/-- `FFTG1`, fft_g1.go:61-97. -/
def fftG1 (fs : FFTSettings K) (vals : List G) (inv : Bool) : Go (Option (List G)) :=
  let n := vals.length
  if n > fs.maxWidth then .ok none
  else if !isPowerOfTwo n then .ok none
  else if n = 0 then .error .panic
  else do
    let rootz ← sliceTo (if inv then fs.reversed else fs.expanded) fs.maxWidth
    let out ← fftG1Rec 64 vals 0 1 rootz (fs.maxWidth / n) n
    pure (some (if inv then out.map fun v => (n : K)⁻¹ • v else out))

end

section
variable {K : Type} [Field K] [DecidableEq K]

/-- `dASFFTExtension`, das_extension.go:10-69. The first argument bounds the depth of the recursion. The loops change entries `i` of the two halves only in round `i`. -/
def dasExt (fs : FFTSettings K) : ℕ → List K → ℕ → Go (List K)
  | 0, _, _ => .error .panic
  | fuel + 1, ab, domainStride =>
    if ab.length = 2 then do
      let a0 ← idx ab 0
      let a1 ← idx ab 1
      let root ← idx fs.expanded domainStride
      pure [(a0 + a1) + (a0 - a1) * root, (a0 + a1) - (a0 - a1) * root]
    else if ab.length < 2 then .error .panic
    else do
      let halfHalf := ab.length / 2
      let pairs ← (List.range halfHalf).mapM fun i => do
        let a0 ← idx (ab.take halfHalf) i
        let a1 ← idx (ab.drop halfHalf) i
        let root ← idx fs.reversed (i * 2 * domainStride)
        pure (a0 + a1, (a0 - a1) * root)
      let half0 ← dasExt fs fuel (pairs.map Prod.fst) (domainStride * 2)
      let half1 ← dasExt fs fuel (pairs.map Prod.snd ++ (ab.drop halfHalf).drop halfHalf) (domainStride * 2)
      let pairs ← (List.range halfHalf).mapM fun i => do
        let x ← idx half0 i
        let y ← idx half1 i
        let root ← idx fs.expanded ((1 + 2 * i) * domainStride)
        pure (x + y * root, x - y * root)
      pure (pairs.map Prod.fst ++ pairs.map Prod.snd ++ half1.drop halfHalf)

/-- `DASFFTExtension`, das_extension.go:74-87; the result is the new content of `vals`. -/
def dasFFTExtension (fs : FFTSettings K) (vals : List K) : Go (List K) :=
  if vals.length * 2 > fs.maxWidth then .error .panic
  else do
    let out ← dasExt fs 64 vals 1
    pure (out.map fun v => v * (vals.length : K)⁻¹)

/-- `EvaluatePolyInEvaluationForm`, internal/bls/globals.go:109-156. `BatchInvModFr` inverts every entry and leaves zeros as they are. -/
def evaluatePolyInEvaluationForm (poly : List K) (x : K) (roots : List K) (scale : ℕ) : Go K :=
  if poly.length ≠ roots.length / 2 ^ scale then .error .panic
  else do
    let y ← (List.range poly.length).foldlM (fun y i => do
      let root ← idx roots (i * 2 ^ scale)
      pure (y + at0 poly i * root * (x - root)⁻¹)) 0
    pure (y * ((x ^ poly.length - 1) * (poly.length : K)⁻¹))

end

end DyCAPS
