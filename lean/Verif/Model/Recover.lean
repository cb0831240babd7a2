import Verif.Model.FFT

/-!
# Recovery of erased samples

`internal/polycommit/zero_poly.go` and `recover_from_samples.go`.

In `ZeroPolyViaMultiplication` all leaves are slices of one array `out`; here a leaf is its offset and length in the list `out`, and writing to a slice replaces that part of the list. The scratch array is not part
of the state, because each call of `reduceLeaves` overwrites what it reads of it; its length is.
-/

namespace DyCAPS

section
variable {K : Type} [Field K] [DecidableEq K]

/-- The inner loop of `makeZeroPolyMulLeaf`, zero_poly.go:36-39: `for j := n; j > 0; j--`. -/
def leafInner (negDi : K) : ℕ → List K → List K
  | 0, dst => dst
  | j + 1, dst => leafInner negDi j (dst.set (j + 1) (at0 dst (j + 1) * negDi + at0 dst j))

/-- One round of the loop of `makeZeroPolyMulLeaf`, zero_poly.go:30-42, for the index `v` at position `i`. -/
def leafStep (fs : FFTSettings K) (domainStride : ℕ) (dst : List K) (iv : ℕ × ℕ) : Go (List K) := do
  let root ← idx fs.expanded (iv.2 * domainStride)
  let negDi := 0 - root
  let dst := dst.set iv.1 negDi
  if iv.1 > 0 then
    let dst := dst.set iv.1 (at0 dst iv.1 + at0 dst (iv.1 - 1))
    let dst := leafInner negDi (iv.1 - 1) dst
    pure (dst.set 0 (at0 dst 0 * negDi))
  else pure dst

/-- `makeZeroPolyMulLeaf`, zero_poly.go:21-43: the new content of `dst`. -/
def makeZeroPolyMulLeaf (fs : FFTSettings K) (dst : List K) (indices : List ℕ) (domainStride : ℕ) : Go (List K) :=
  if dst.length < indices.length + 1 then .error .panic
  else
    let dst := dst.take (indices.length + 1) ++ List.replicate (dst.length - (indices.length + 1)) 0
    let dst := dst.set indices.length 1
    ((List.range indices.length).zip indices).foldlM (leafStep fs domainStride) dst

/-- `padPoly`, zero_poly.go:46-53, with `len(out) = n`. -/
def padPoly (n : ℕ) (poly : List K) : Go (List K) :=
  if poly.length > n then .error .panic else .ok (poly ++ List.replicate (n - poly.length) 0)

/-- The loop of `reduceLeaves`, zero_poly.go:95-106: the padded array and the product so far. -/
def reduceStep (fs : FFTSettings K) (n : ℕ) (st : List K × List K) (p : List K) : Go (List K × List K) :=
  if p.length > n then .error .panic
  else do
    let pPadded := p ++ st.1.drop p.length
    let pEval ← fftOrPanic (inplaceFFT fs pPadded false)
    pure (pPadded, List.zipWith (· * ·) st.2 pEval)

/-- `reduceLeaves`, zero_poly.go:62-111, with `len(dst) = n`: the new content of `dst` and the length of the returned part of it. -/
def reduceLeaves (fs : FFTSettings K) (scratch n : ℕ) (ps : List (List K)) : Go (List K × ℕ) :=
  if !isPowerOfTwo n then .error .panic
  else if ps.length = 0 then .error .panic
  else if ps.any (fun p => p.length == 0) then .error .panic
  else
    let outDegree := (ps.map fun p => p.length - 1).sum
    if outDegree + 1 > n then .error .panic
    else if scratch < 3 * n then .error .panic
    else do
      let pPadded ← padPoly n (ps.getLastD [])
      let mulEvalPs ← fftOrPanic (inplaceFFT fs pPadded false)
      let (_, mulEvalPs) ← ps.dropLast.foldlM (reduceStep fs n) (pPadded, mulEvalPs)
      let dst ← fftOrPanic (inplaceFFT fs mulEvalPs true)
      pure (dst, outDegree + 1)

/-- The content of a slice. zero_poly.go:62-221. -/
def sliceOf (out : List K) (l : ℕ × ℕ) : List K := (out.drop l.1).take l.2

/-- Writing `dst` into `out` at an offset. zero_poly.go:62-221. -/
def writeAt (out : List K) (offset : ℕ) (dst : List K) : List K := out.take offset ++ dst ++ out.drop (offset + dst.length)

/-- Building a leaf, zero_poly.go:161-173: the array and the leaves so far. -/
def buildLeaf (fs : FFTSettings K) (missing : List ℕ) (domainStride : ℕ) (st : List K × List (ℕ × ℕ)) (i : ℕ) : Go (List K × List (ℕ × ℕ)) :=
  if i * 64 + 64 > st.1.length then .error .panic
  else do
    let leaf ← makeZeroPolyMulLeaf fs (sliceOf st.1 (i * 64, 64)) ((missing.drop (i * 63)).take 63) domainStride
    pure (writeAt st.1 (i * 64) leaf, st.2 ++ [(i * 64, 64)])

/-- The body of the inner reduction loop, zero_poly.go:186-205, for group `i`: the array and the new leaves. The code writes `leaves[i]` after reading `leaves[4i:4i+4]`, and no later round reads it. -/
def reduceGroup (fs : FFTSettings K) (leaves : List (ℕ × ℕ)) (leafSize : ℕ) (st : List K × List (ℕ × ℕ)) (i : ℕ) : Go (List K × List (ℕ × ℕ)) :=
  let start := i * 4
  let stop := start + 4
  let outEnd := min (stop * leafSize) st.1.length
  if start * leafSize > outEnd then .error .panic
  else
    let stop := min stop leaves.length
    if stop > start + 1 then do
      let (dst, l) ← reduceLeaves fs (3 * st.1.length) (outEnd - start * leafSize) (((leaves.drop start).take (stop - start)).map (sliceOf st.1))
      pure (writeAt st.1 (start * leafSize) dst, st.2 ++ [(start * leafSize, l)])
    else pure (st.1, st.2 ++ [(start * leafSize, outEnd - start * leafSize)])

/-- One round of the reduction, zero_poly.go:183-206. -/
def reduceRound (fs : FFTSettings K) (st : List K × List (ℕ × ℕ)) : Go (List K × List (ℕ × ℕ)) := do
  let l0 ← idx st.2 0
  (List.range ((st.2.length + 3) / 4)).foldlM (reduceGroup fs st.2 (nextPowOf2 l0.2)) (st.1, [])

/-- The outer reduction loop, zero_poly.go:182-207. The first argument bounds the number of rounds; each round reduces the number of leaves. -/
def reduceAll (fs : FFTSettings K) : ℕ → List K × List (ℕ × ℕ) → Go (List K × List (ℕ × ℕ))
  | 0, st => .ok st
  | fuel + 1, st => if st.2.length > 1 then do reduceAll fs fuel (← reduceRound fs st) else .ok st

/-- `ZeroPolyViaMultiplication`, zero_poly.go:120-221: `(zeroEval, zeroPoly)`. With `length = 0` the stride `MaxWidth / length` panics. `make` with a length above the capacity panics. -/
def zeroPolyViaMultiplication (fs : FFTSettings K) (missing : List ℕ) (length : ℕ) : Go (List K × List K) :=
  if missing.length = 0 then .ok (List.replicate length 0, List.replicate length 0)
  else if length > fs.maxWidth then .error .panic
  else if !isPowerOfTwo length then .error .panic
  else if length = 0 then .error .panic
  else
    let domainStride := fs.maxWidth / length
    if missing.length ≤ 63 then
      if missing.length + 1 > length then .error .panic
      else do
        let zeroPoly ← makeZeroPolyMulLeaf fs (List.replicate (missing.length + 1) 0) missing domainStride
        let zeroPoly := zeroPoly ++ List.replicate (length - (missing.length + 1)) 0
        let zeroEval ← fftOrPanic (fft fs zeroPoly false)
        pure (zeroEval, zeroPoly)
    else do
      let leafCount := (missing.length + 62) / 63
      let n := nextPowOf2 (leafCount * 64)
      let st ← (List.range leafCount).foldlM (buildLeaf fs missing domainStride) (List.replicate n 0, [])
      let st ← reduceAll fs leafCount st
      let l0 ← idx st.2 0
      let zeroPoly := sliceOf st.1 l0
      if zeroPoly.length > length then .error .panic
      else do
        let zeroPoly := zeroPoly ++ List.replicate (length - zeroPoly.length) 0
        let zeroEval ← fftOrPanic (fft fs zeroPoly false)
        pure (zeroEval, zeroPoly)

/-- The loop of `ShiftPoly` and `UnshiftPoly`: multiplication by the powers of `f`, starting with `factorPower`. recover_from_samples.go:20-27,36-42. -/
def scalePoly (f : K) : K → List K → List K
  | _, [] => []
  | factorPower, p :: ps => p * factorPower :: scalePoly f (factorPower * f) ps

/-- `ShiftPoly`, recover_from_samples.go:12-27. -/
def shiftPoly (poly : List K) : List K := scalePoly ((5 : K)⁻¹) 1 poly

/-- `UnshiftPoly`, recover_from_samples.go:30-43. -/
def unshiftPoly (poly : List K) : List K := scalePoly (5 : K) 1 poly

/-- `missingIndices`, recover_from_samples.go:48-53; a nil pointer is `none`. -/
def missingIndices (samples : List (Option K)) : List ℕ := (List.range samples.length).filter fun i => (samples.getD i none).isNone

/-- `RecoverPolyFromSamples`, recover_from_samples.go:45-112, for `fs` and a `zeroPolyFn`. `none`: an error is returned. The value `DivModFr(a, b)` is `a * b⁻¹`, and 0 for `b = 0`. -/
def recoverPolyFromSamples (fs : FFTSettings K) (samples : List (Option K)) (zeroPolyFn : List ℕ → ℕ → Go (List K × List K)) : Go (Option (List K)) := do
  let (zeroEval, zeroPoly) ← zeroPolyFn (missingIndices samples) samples.length
  let evals ← (List.range samples.length).mapM fun i => do
    let z ← idx zeroEval i
    match samples.getD i none with
    | none => if z = 0 then pure (0 : K) else .error .panic
    | some s => if z = 0 then .error .panic else pure (s * z)
  match ← fft fs evals true with
  | none => pure none
  | some polyWithZero =>
    match ← fft fs (shiftPoly polyWithZero) false with
    | none => pure none
    | some evalShiftedPolyWithZero =>
      match ← fft fs (shiftPoly zeroPoly) false with
      | none => pure none
      | some evalShiftedZeroPoly =>
        let quot ← (List.range evalShiftedPolyWithZero.length).mapM fun i => do
          let a ← idx evalShiftedPolyWithZero i
          let b ← idx evalShiftedZeroPoly i
          pure (a * b⁻¹)
        match ← fft fs quot true with
        | none => pure none
        | some shiftedReconstructedPoly =>
          match ← fft fs (unshiftPoly shiftedReconstructedPoly) false with
          | none => pure none
          | some data =>
            let bad ← (List.range samples.length).mapM fun i =>
              match samples.getD i none with
              | none => pure false
              | some s => do
                let d ← idx data i
                pure (decide (d ≠ s))
            if bad.any id then pure none else pure (some data)

end

end DyCAPS
