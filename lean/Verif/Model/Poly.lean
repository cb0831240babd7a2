import Mathlib.Algebra.Field.Basic
import Verif.Model.Go

/-!
# Polynomial helper functions

Transcription of `internal/bls/globals.go` (EvalPolyAtUnoptimized, PolyLinComb, LinCombFr),
`internal/polyring/interpolation.go`, `internal/polycommit/poly.go` and `GetLagrangeCoefficients`
(`internal/party/party_utils.go`).  Coefficient lists are little-endian (index = power).
`K` is the scalar field; `K⁻¹` of `0` is `0`, which is what the kilic back end returns for `InvModFr(0)`.
-/

namespace DyCAPS

variable {K : Type*} [Field K] [DecidableEq K]

/-- Slice read where the caller has established that the index is in range (reads `0` otherwise). For example poly.go:17-43. -/
abbrev at0 {K : Type*} [Zero K] (l : List K) (i : ℕ) : K := l.getD i 0

/-- The descending loop of `EvalPolyAtUnoptimized`, globals.go:93-96: `for i := n-1; i >= 0; i-- { last = last*x + coeffs[i] }`,
first argument = number of remaining indices. -/
def hornerLoop (coeffs : List K) (x : K) : ℕ → K → K
  | 0, last => last
  | i + 1, last => hornerLoop coeffs x i (last * x + at0 coeffs i)

/-- `EvalPolyAtUnoptimized` = `EvalPolyAt`, internal/bls/globals.go:79-98 (kilic back end: bignum_kilic.go `EvalPolyAt`). -/
def evalPolyAt (coeffs : List K) (x : K) : K :=
  if coeffs.length = 0 then 0
  else if x = 0 then at0 coeffs 0
  else hornerLoop coeffs x (coeffs.length - 1) (at0 coeffs (coeffs.length - 1))

/-- `mulPolyDegreeOne`, internal/polyring/interpolation.go:63-79: both loops, in order. -/
def mulPolyDegreeOne (poly factor : List K) : Go (List K) :=
  if factor.length ≠ 2 then .error .fatal
  else
    let ans := List.replicate (poly.length + 1) (0 : K)
    let ans := (List.range poly.length).foldl (fun ans i => ans.set i (at0 poly i * at0 factor 0)) ans
    let ans := (List.range poly.length).foldl
      (fun ans i => ans.set (i + 1) (at0 ans (i + 1) + at0 poly i * at0 factor 1)) ans
    .ok ans

/-- Loop of `divPolyDegreeOne`, interpolation.go:100-104 (`i` counts down from `deg1` to `1`). -/
def divLoop (op20 : K) : ℕ → List K → List K → List K
  | 0, ans, _ => ans
  | i + 1, ans, inter =>
    let q := at0 inter (i + 1)
    divLoop op20 i (ans.set i q) (inter.set i (at0 inter i - q * op20))

/-- `divPolyDegreeOne`, internal/polyring/interpolation.go:81-107. An empty `op1` gives `make([]Fr,-1)`: panic. -/
def divPolyDegreeOne (op1 op2 : List K) : Go (List K) :=
  if op2.length ≠ 2 then .error .fatal
  else if 1 ≠ at0 op2 1 then .error .fatal
  else if op1.length = 0 then .error .panic
  else .ok (divLoop (at0 op2 0) (op1.length - 1) (List.replicate (op1.length - 1) 0) op1)

/-- `resultPoly[j] += inter[j]*c` for all `j`, interpolation.go:54-58. -/
def addScaled (res inter : List K) (c : K) : List K :=
  (List.range inter.length).foldl (fun res j => res.set j (at0 res j + at0 inter j * c)) res

/-- First loop of `LagrangeInterpolate`, interpolation.go:25-30. -/
def lagrangeProduct (degree : ℕ) (x : List K) : Go (List K) :=
  (List.range (degree + 1)).foldlM (fun product i => do
    let xi ← idx x i
    mulPolyDegreeOne product [0 - xi, 1]) [1]

/-- Body of the second loop of `LagrangeInterpolate`, interpolation.go:31-59. -/
def lagrangeStep (product x y : List K) (res : List K) (i : ℕ) : Go (List K) := do
  let xi ← idx x i
  let inter ← divPolyDegreeOne product [0 - xi, 1]
  let denominator := evalPolyAt inter xi
  if denominator = 0 then .error .fatal
  else do
    let yi ← idx y i
    pure (addScaled res inter (denominator⁻¹ * yi))

/-- `LagrangeInterpolate`, internal/polyring/interpolation.go:9-61. -/
def lagrangeInterpolate (degree : ℕ) (x y : List K) : Go (List K) := do
  let product ← lagrangeProduct degree x
  (List.range (degree + 1)).foldlM (lagrangeStep product x y) (List.replicate (degree + 1) 0)

/-- `polyLongDiv` loop, internal/polycommit/poly.go:26-41; first argument is `diff + 1`, returns `(out, a)`. The quotient of two coefficients is `polyFactorDiv`, poly.go:9-14. -/
def longDivLoop (divisor : List K) : ℕ → List K → List K → List K × List K
  | 0, out, a => (out, a)
  | d + 1, out, a =>
    let bPos := divisor.length - 1
    let quot := (at0 divisor bPos)⁻¹ * at0 a (d + bPos)
    let a' := (List.range (bPos + 1)).reverse.foldl
      (fun a i => a.set (d + i) (at0 a (d + i) - quot * at0 divisor i)) a
    longDivLoop divisor d (out.set d quot) a'

/-- `polyLongDiv`, internal/polycommit/poly.go:17-43. `make` with negative length and `divisor[-1]` panic. -/
def polyLongDiv (dividend divisor : List K) : Go (List K) :=
  if divisor.length = 0 then .error .panic
  else if dividend.length + 1 < divisor.length then .error .panic
  else
    let n := dividend.length + 1 - divisor.length
    .ok (longDivLoop divisor n (List.replicate n 0) dividend).1

/-- Inner loop of `GetLagrangeCoefficients`, party_utils.go:182-197, for one `i`. -/
def lagrangeCoeff (x : List K) (target : K) (deg i : ℕ) : K :=
  (List.range (deg + 1)).foldl (fun res j =>
    if j ≠ i then (at0 x i - at0 x j)⁻¹ * (res * (target - at0 x j)) else res) 1

/-- `GetLagrangeCoefficients`, internal/party/party_utils.go:176-199; the result is what is written to `lambda`
(the callers allocate `deg+1` entries). -/
def getLagrangeCoefficients (deg : ℕ) (x : List K) (target : K) : Go (List K) :=
  if x.length ≠ deg + 1 then .error .panic
  else .ok ((List.range (deg + 1)).map (lagrangeCoeff x target deg))

/-- `LinCombFr`, internal/bls/globals.go:183-197. -/
def linCombFr (numbers factors : List K) : Go K :=
  if numbers.length ≠ factors.length then .error .panic
  else .ok ((List.range numbers.length).foldl (fun out i => at0 numbers i * at0 factors i + out) 0)

/-- `PolyLinComb`, internal/bls/globals.go:158-181. `none` is the returned Go error. -/
def polyLinComb (vectors : List (List K)) (scalars : List K) (polyDegree : ℕ) : Option (List K) :=
  if vectors.length = 0 then some (List.replicate polyDegree 0)
  else if scalars.length ≠ vectors.length then none
  else (List.range vectors.length).foldlM (fun r j =>
    let v := vectors.getD j []
    if v.length ≠ polyDegree then none
    else some ((List.range v.length).foldl (fun r i => r.set i (at0 r i + at0 scalars j * at0 v i)) r))
    (List.replicate polyDegree 0)

/-- `PadCoeff`, internal/party/party_utils.go:159-173. -/
def padCoeff (poly : List K) (maxWidth : ℕ) : Go (List K) :=
  if poly.length > maxWidth then .error .fatal
  else .ok ((List.range maxWidth).map fun i => if i < poly.length then at0 poly i else 0)

end DyCAPS
