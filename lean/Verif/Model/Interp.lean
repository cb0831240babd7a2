import Verif.Model.KZG

/-!
# Interpolation of commitments and witnesses

`InterpolateComOrWit`, `InterpolateComOrWitByKnownIndexes` (internal/party/party_utils.go) and the coefficient table that
`NewHonestParty` fills (internal/party/party.go).  `AsFr` of a number is its cast; uint32 overflow of `2*F`, `3*F+1` is
not modelled (committee sizes are far below 2^30).
-/

namespace DyCAPS

variable {K G1 : Type} [Field K] [DecidableEq K] [AddCommGroup G1] [Module K G1]

/-- The known indices `1, ..., n`, party.go:143-146, party_utils.go:325-327. -/
def firstIndices (n : ℕ) : List K := (List.range n).map fun j => ((j + 1 : ℕ) : K)

/-- `LagrangeCoefficients` as computed by `NewHonestParty`, party.go:142-153. -/
def lagrangeTable (F N : ℕ) : Go (List (List K)) :=
  (List.range (N + 1)).mapM fun i => getLagrangeCoefficients (2 * F) (firstIndices (2 * F + 1)) ((i : ℕ) : K)

/-- `InterpolateComOrWit`, party_utils.go:308-335; `F` and `table` are the party's `F` and `LagrangeCoefficients`. -/
def interpolateComOrWit (F : ℕ) (table : List (List K)) (degree target : ℕ) (list : List G1) : Go G1 :=
  let cwList := (List.range (degree + 1)).map fun i => list.getD i 0
  if 0 < target ∧ target ≤ degree + 1 then idx cwList (target - 1)
  else if target ≤ 3 * F + 1 ∧ degree = 2 * F then do
    let lambda ← idx table target
    linCombG1 list lambda
  else do
    let lambda ← getLagrangeCoefficients degree (firstIndices (degree + 1)) ((target : ℕ) : K)
    linCombG1 list lambda

/-- The loop deciding `isSimple`, party_utils.go:340-348: remaining iterations, current index. -/
def isSimpleLoop (known : List K) : ℕ → ℕ → Go Bool
  | 0, _ => .ok true
  | n + 1, i => do
    let k ← idx known i
    if k ≠ ((i + 1 : ℕ) : K) then .ok false else isSimpleLoop known n (i + 1)

/-- `InterpolateComOrWitByKnownIndexes`, party_utils.go:337-359. -/
def interpolateByKnownIndexes (F : ℕ) (table : List (List K)) (degree target : ℕ) (known : List K) (list : List G1) :
    Go G1 := do
  let simple ← isSimpleLoop known (degree + 1) 0
  if simple then interpolateComOrWit F table degree target list
  else do
    let lambda ← getLagrangeCoefficients degree known ((target : ℕ) : K)
    linCombG1 list lambda

end DyCAPS
