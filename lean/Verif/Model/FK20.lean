import Verif.Model.FFT
import Verif.Model.BitRev
import Verif.Model.KZG

/-!
# Proofs for several points

`internal/polycommit/kzg_multi_proofs.go`, `fk20_single.go`, `fk20_multi.go`, and the settings of `kzg.go`. The FFT settings embedded in `KZGSettings` are the argument `fs`. Points are elements of a module, as in `Model/KZG`.
-/

namespace DyCAPS

/-- `if err != nil { panic(err) }`. fk20_single.go:44-90, fk20_multi.go:28-136. -/
def orPanic {α : Type} (r : Go (Option α)) : Go α := do
  match ← r with
  | some out => pure out
  | none => .error .panic

section
variable {K G1 G2 GT : Type} [Field K] [DecidableEq K] [AddCommGroup G1] [Module K G1] [AddCommGroup G2] [Module K G2] [AddCommGroup GT] [Module K GT]

/-- The loop of kzg_multi_proofs.go:24-28. `xPowN` is declared without a value, so it starts as 0. -/
def multiPow (xFr : K) (n : ℕ) : K := (List.range n).foldl (fun xPowN _ => xPowN * xFr) 0

/-- The divisor of `ComputeProofMulti`, kzg_multi_proofs.go:19-37. -/
def multiDivisor (xFr : K) (n : ℕ) : List K := ((List.replicate (n + 1) 0).set 0 (0 - multiPow xFr n)).set n 1

/-- `ComputeProofMulti`, kzg_multi_proofs.go:17-47. -/
def computeProofMulti (ks : KZGSettings G1 G2) (poly : List K) (x n : ℕ) : Go G1 := do
  let q ← polyLongDiv poly (multiDivisor (x : K) n)
  if q.length ≤ ks.secretG1.length then linCombG1 (ks.secretG1.take q.length) q else .error .panic

/-- The loop of kzg_multi_proofs.go:61-70: the scaled coefficients and the last power. `InvModFr(0)` is 0. -/
def unscaleCoset (x : K) : K → List K → List K × K
  | xPow, [] => ([], xPow)
  | xPow, c :: cs => let r := unscaleCoset x (xPow * x) cs; (c * xPow⁻¹ :: r.1, r.2)

/-- `CheckProofMulti`, kzg_multi_proofs.go:51-92. -/
def checkProofMulti [DecidableEq GT] (pp : Pairing K G1 G2 GT) (fs : FFTSettings K) (ks : KZGSettings G1 G2) (commitment proof : G1) (x : K) (ys : List K) : Go Bool := do
  let interpolationPoly ← orPanic (fft fs ys true)
  let (interpolationPoly, xPow) := unscaleCoset x 1 interpolationPoly
  let sn ← idx ks.secretG2 ys.length
  let xnMinusYn := sn - xPow • pp.g2
  let is1 ← if interpolationPoly.length ≤ ks.secretG1.length then linCombG1 (ks.secretG1.take interpolationPoly.length) interpolationPoly else .error .panic
  pure (pairingsVerify pp (commitment - is1) pp.g2 proof xnMinusYn)

end

section
variable {K G : Type} [Field K] [DecidableEq K] [AddCommGroup G] [Module K G]

/-- `toeplitzPart1`, fk20_single.go:44-60. -/
def toeplitzPart1 (fs : FFTSettings K) (x : List G) : Go (List G) := orPanic (fftG1 fs (x ++ List.replicate x.length 0) false)

/-- `ToeplitzPart2`, fk20_single.go:63-81. -/
def toeplitzPart2 (fs : FFTSettings K) (toeplitzCoeffs : List K) (xExtFFT : List G) : Go (List G) :=
  if toeplitzCoeffs.length ≠ xExtFFT.length then .error .panic
  else do
    let toeplitzCoeffsFFT ← orPanic (fft fs toeplitzCoeffs false)
    (List.range toeplitzCoeffsFFT.length).mapM fun i => do
      let x ← idx xExtFFT i
      pure (at0 toeplitzCoeffsFFT i • x)

/-- `ToeplitzPart3`, fk20_single.go:84-91. The second component is the capacity of the returned slice. -/
def toeplitzPart3 (fs : FFTSettings K) (hExtFFT : List G) : Go (List G × ℕ) := do
  let out ← orPanic (fftG1 fs hExtFFT true)
  pure (out.take (out.length / 2), out.length)

/-- `toeplitzCoeffsStepStrided`, fk20_single.go:93-107, for `offset < stride` as in all calls; `n-1-offset` wraps around when it would be negative, and then is no index. -/
def toeplitzCoeffsStepStrided (polynomial : List K) (offset stride : ℕ) : Go (List K) :=
  let n := polynomial.length
  if stride = 0 then .error .panic
  else
    let k := n / stride
    if k * 2 = 0 ∨ n < offset + 1 then .error .panic
    else do
      let last ← idx polynomial (n - 1 - offset)
      if k * 2 ≤ k + 1 then .error .panic
      else do
        let rest ← (List.range (k * 2 - (k + 2))).mapM fun m => idx polynomial (2 * stride - offset - 1 + m * stride)
        pure (last :: (List.replicate (k + 1) 0 ++ rest))

/-- `toeplitzCoeffsStep`, fk20_single.go:110-123. -/
def toeplitzCoeffsStep (polynomial : List K) : Go (List K) :=
  let n := polynomial.length
  if n * 2 = 0 then .error .panic
  else do
    let last ← idx polynomial (n - 1)
    if n * 2 ≤ n + 1 then .error .panic
    else do
      let rest ← (List.range (n * 2 - (n + 2))).mapM fun m => idx polynomial (1 + m)
      pure (last :: (List.replicate (n + 1) 0 ++ rest))

/-- `NewFK20SingleSettings`, kzg.go:45-66: the field `xExtFFT`. -/
def newFK20Single (fs : FFTSettings K) (secretG1 : List G) (n2 : ℕ) : Go (List G) :=
  if n2 > fs.maxWidth then .error .panic
  else if !isPowerOfTwo n2 then .error .panic
  else if n2 < 2 then .error .panic
  else do
    let n := n2 / 2
    let x ← (List.range (n - 1)).mapM fun i => idx secretG1 (n - 2 - i)
    toeplitzPart1 fs (x ++ [0])

/-- `FK20Single`, fk20_single.go:126-138. -/
def fk20Single (fs : FFTSettings K) (xExtFFT : List G) (polynomial : List K) : Go (List G) := do
  let toeplitzCoeffs ← toeplitzCoeffsStep polynomial
  let hExtFFT ← toeplitzPart2 fs toeplitzCoeffs xExtFFT
  let (h, _) ← toeplitzPart3 fs hExtFFT
  orPanic (fftG1 fs h false)

/-- `FK20SingleDAOptimized`, fk20_single.go:143-176. -/
def fk20SingleDAOptimized (fs : FFTSettings K) (xExtFFT : List G) (polynomial : List K) : Go (List G) :=
  let n2 := polynomial.length
  if n2 > fs.maxWidth then .error .panic
  else if !isPowerOfTwo n2 then .error .panic
  else
    let n := n2 / 2
    if (polynomial.drop n).any (fun c => decide (c ≠ 0)) then .error .panic
    else do
      let toeplitzCoeffs ← toeplitzCoeffsStep (polynomial.take n)
      let hExtFFT ← toeplitzPart2 fs toeplitzCoeffs xExtFFT
      let (h, cap) ← toeplitzPart3 fs hExtFFT
      if n2 > cap then .error .panic
      else orPanic (fftG1 fs (h.take n ++ List.replicate (n2 - n) 0) false)

/-- `DAUsingFK20`, fk20_single.go:180-200. -/
def daUsingFK20 (fs : FFTSettings K) (xExtFFT : List G) (polynomial : List K) : Go (List G) :=
  let n := polynomial.length
  if n > fs.maxWidth / 2 then .error .panic
  else if !isPowerOfTwo n then .error .panic
  else do
    let allProofs ← fk20SingleDAOptimized fs xExtFFT (polynomial ++ List.replicate n 0)
    reverseBitOrderList allProofs

/-- `NewFK20MultiSettings`, kzg.go:75-118: the field `xExtFFTFiles`. For `k = 1` the start index wraps around and is not used. -/
def newFK20Multi (fs : FFTSettings K) (secretG1 : List G) (n2 chunkLen : ℕ) : Go (List (List G)) :=
  if n2 > fs.maxWidth then .error .panic
  else if !isPowerOfTwo n2 then .error .panic
  else if n2 < 2 then .error .panic
  else if chunkLen > n2 / 2 then .error .panic
  else if !isPowerOfTwo chunkLen then .error .panic
  else if chunkLen < 1 then .error .panic
  else
    let n := n2 / 2
    let k := n / chunkLen
    (List.range chunkLen).mapM fun offset => do
      let x ← (List.range (k - 1)).mapM fun i => idx secretG1 (n - chunkLen - 1 - offset - i * chunkLen)
      toeplitzPart1 fs (x ++ [0])

/-- One round of the loops fk20_multi.go:42-49 and 83-94: `n2` is the length of `hExtFFT`. -/
def fk20MultiStep (fs : FFTSettings K) (chunkLen : ℕ) (files : List (List G)) (polynomial : List K) (n2 : ℕ) (hExtFFT : List G) (i : ℕ) : Go (List G) := do
  let toeplitzCoeffs ← toeplitzCoeffsStepStrided polynomial i chunkLen
  let file ← idx files i
  let hExtFFTFile ← toeplitzPart2 fs toeplitzCoeffs file
  (List.range n2).mapM fun j => do
    let a ← idx hExtFFT j
    let b ← idx hExtFFTFile j
    pure (a + b)

/-- `FK20Multi`, fk20_multi.go:28-57. -/
def fk20Multi (fs : FFTSettings K) (chunkLen : ℕ) (files : List (List G)) (polynomial : List K) : Go (List G) :=
  let n := polynomial.length
  let n2 := n * 2
  if fs.maxWidth < n2 then .error .panic
  else do
    let hExtFFT ← (List.range chunkLen).foldlM (fk20MultiStep fs chunkLen files polynomial n2) (List.replicate n2 0)
    let (h, _) ← toeplitzPart3 fs hExtFFT
    orPanic (fftG1 fs h false)

/-- `FK20MultiDAOptimized`, fk20_multi.go:61-112. -/
def fk20MultiDAOptimized (fs : FFTSettings K) (chunkLen : ℕ) (files : List (List G)) (polynomial : List K) : Go (List G) :=
  let n2 := polynomial.length
  if fs.maxWidth < n2 then .error .panic
  else
    let n := n2 / 2
    if (polynomial.drop n).any (fun c => decide (c ≠ 0)) then .error .panic
    else if chunkLen = 0 then .error .panic
    else do
      let k := n / chunkLen
      let k2 := k * 2
      let hExtFFT ← (List.range chunkLen).foldlM (fk20MultiStep fs chunkLen files (polynomial.take n) k2) (List.replicate k2 0)
      let (h, cap) ← toeplitzPart3 fs hExtFFT
      if k2 > cap then .error .panic
      else orPanic (fftG1 fs (h.take k ++ List.replicate (k2 - k) 0) false)

/-- `DAUsingFK20Multi`, fk20_multi.go:116-136. -/
def daUsingFK20Multi (fs : FFTSettings K) (chunkLen : ℕ) (files : List (List G)) (polynomial : List K) : Go (List G) :=
  let n := polynomial.length
  if n > fs.maxWidth / 2 then .error .panic
  else if !isPowerOfTwo n then .error .panic
  else do
    let allProofs ← fk20MultiDAOptimized fs chunkLen files (polynomial ++ List.replicate n 0)
    reverseBitOrderList allProofs

end

end DyCAPS
