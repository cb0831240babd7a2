import Verif.Model.Recover

/-!
# The older recovery of erased samples

`internal/polycommit/legacy_recovery.go`. Lengths, positions and strides are natural numbers, as in `Model/FFT`. A returned Go error is `none`.
-/

namespace DyCAPS

section
variable {K : Type} [Field K] [DecidableEq K]

/-- `mulPolysWithFFT`, legacy_recovery.go:14-50. Copying more than `size` coefficients panics. The inverse transform is not divided by the length. -/
def mulPolysWithFFT (fs : FFTSettings K) (a b : List K) (stride : ℕ) : Go (List K) :=
  if stride = 0 then .error .panic
  else
    let size := fs.maxWidth / stride
    if a.length > size then .error .panic
    else if b.length > size then .error .panic
    else do
      let rootz ← sliceTo fs.expanded fs.maxWidth
      let x1 ← fftRec 64 (a ++ List.replicate (size - a.length) 0) 0 1 rootz stride size
      let x2 ← fftRec 64 (b ++ List.replicate (size - b.length) 0) 0 1 rootz stride size
      let revRootz ← sliceTo fs.reversed fs.maxWidth
      fftRec 64 (List.zipWith (· * ·) x1 x2) 0 1 revRootz stride size

/-- The first loop of `multiInv`, legacy_recovery.go:56-58: `partials[i]`, from the given start. -/
def multiInvPartials : K → List K → List K
  | acc, [] => [acc]
  | acc, v :: vs => acc :: multiInvPartials (acc * v) vs

/-- The second loop of `multiInv`, legacy_recovery.go:63-67: `outputs` from index `i` on and the inverse so far. -/
def multiInvLoop (partials values : List K) : ℕ → K → List K → List K
  | 0, _, outputs => outputs
  | i + 1, inv, outputs => multiInvLoop partials values i (inv * at0 values i) (at0 partials i * inv :: outputs)

/-- `multiInv`, legacy_recovery.go:53-69. The products start with `values[0]` instead of 1. -/
def multiInv (values : List K) : Go (List K) := do
  let v0 ← idx values 0
  let partials := multiInvPartials v0 values
  pure (multiInvLoop partials values values.length (at0 partials values.length)⁻¹ [])

/-- `pOfKX`, legacy_recovery.go:72-82. -/
def pOfKX (poly : List K) (k : K) : List K := scalePoly k 1 poly

/-- `inefficientOddEvenDiv2`, legacy_recovery.go:84-93. -/
def oddEvenDiv2 (positions : List ℕ) : List ℕ × List ℕ := ((positions.filter fun p => p % 2 = 0).map (· / 2), (positions.filter fun p => p % 2 = 1).map (· / 2))

/-- The innermost loop of `_zPoly`, legacy_recovery.go:118-122: `for j := i; j >= 1; j--`. -/
def zInner (x : K) : ℕ → List K → List K
  | 0, root => root
  | j + 1, root => zInner x j (root.set (j + 1) (at0 root (j + 1) - at0 root j * x))

/-- One round of the loop over the positions, legacy_recovery.go:115-124: `i` is the number of the round, from 1. -/
def zStep (fs : FFTSettings K) (stride : ℕ) (root : List K) (ip : ℕ × ℕ) : Go (List K) := do
  let x ← idx fs.expanded (ip.2 * stride)
  pure (zInner x ip.1 (root.set ip.1 0))

/-- The case of at most four positions of `_zPoly`, legacy_recovery.go:100-131. -/
def zNaive (fs : FFTSettings K) (positions : List ℕ) (stride : ℕ) : Go (List K) := do
  let root ← ((List.range' 1 positions.length).zip positions).foldlM (zStep fs stride) ((List.replicate (positions.length + 1) 0).set 0 1)
  pure root.reverse

/-- `_zPoly`, legacy_recovery.go:97-161. The first argument bounds the depth of the recursion. -/
def zPoly (fs : FFTSettings K) : ℕ → List ℕ → ℕ → Go (List K)
  | 0, _, _ => .error .panic
  | fuel + 1, positions, stride =>
    if positions.length ≤ 4 then zNaive fs positions stride
    else do
      let (even, odd) := oddEvenDiv2 positions
      let left ← zPoly fs fuel even (stride * 2)
      let right ← zPoly fs fuel odd (stride * 2)
      let invRoot ← idx fs.reversed stride
      let out ← mulPolysWithFFT fs left (pOfKX right invRoot) stride
      if out.all (fun c => c = 0) then
        if out.length = 0 then .error .panic else pure (out.set 0 1 ++ [-1])
      else pure out

/-- Recovering `p(x)` from `p(k*x)`, legacy_recovery.go:244-256. -/
def unKX (invk : K) : List K → List K
  | [] => []
  | [a] => [a]
  | a :: b :: l => a :: b * invk :: scalePoly invk (invk * invk) l

/-- Multiplying the samples with the values of the zero polynomial, legacy_recovery.go:186-193. -/
def timesZ (vals : List (Option K)) (zVals : List K) : Go (List K) :=
  (List.range vals.length).mapM fun i =>
    match vals.getD i none with
    | none => pure 0
    | some v => do pure (v * (← idx zVals i))

/-- The comparison of the output with the samples, legacy_recovery.go:263-272, from sample `i` on. -/
def checkOutput (output : List K) : ℕ → List (Option K) → Go Bool
  | _, [] => .ok true
  | i, none :: vals => checkOutput output (i + 1) vals
  | i, some v :: vals => do
    let x ← idx output i
    if v = x then checkOutput output (i + 1) vals else pure false

/-- The loop over `k`, legacy_recovery.go:206-286, with the number of attempts that are left. `AsFr` of `k` is its cast. -/
def recoverAttempts (fs : FFTSettings K) (vals : List (Option K)) (z pTimesZ : List K) : ℕ → ℕ → Go (Option (List K))
  | 0, _ => .ok none
  | left + 1, k => do
    match ← fft fs (pOfKX pTimesZ (k : K)) false with
    | none => pure none
    | some pTimesZOfKXVals =>
      match ← fft fs (pOfKX z (k : K)) false with
      | none => pure none
      | some zOfKXVals =>
        let invZOfKXVals ← multiInv zOfKXVals
        let pOfKxVals ← (List.range pTimesZOfKXVals.length).mapM fun i => do pure (at0 pTimesZOfKXVals i * (← idx invZOfKXVals i))
        match ← fft fs pOfKxVals true with
        | none => pure none
        | some pOfKx =>
          match ← fft fs (unKX (k : K)⁻¹ pOfKx) false with
          | none => pure none
          | some output =>
            if ← checkOutput output 0 vals then pure (some output) else recoverAttempts fs vals z pTimesZ left (k + 1)

/-- `ErasureCodeRecover`, legacy_recovery.go:166-287; nil samples are `none`. Without samples the stride `MaxWidth / len(vals)` panics. -/
def erasureCodeRecover (fs : FFTSettings K) (vals : List (Option K)) : Go (Option (List K)) :=
  if vals.length = 0 then .error .panic
  else do
    let z ← zPoly fs 65 (missingIndices vals) (fs.maxWidth / vals.length)
    match ← fft fs z false with
    | none => pure none
    | some zVals =>
      let pTimesZVals ← timesZ vals zVals
      match ← fft fs pTimesZVals true with
      | none => pure none
      | some pTimesZ => recoverAttempts fs vals z pTimesZ 10 2

end

end DyCAPS
