import Mathlib.Algebra.BigOperators.Intervals
import Mathlib.Algebra.Field.Basic

/-! Specification vocabulary for bivariate polynomials, given by a coefficient matrix `b i j` of `x^i y^j`. -/

namespace DyCAPS

variable {K : Type*} [Field K]

/-- `B(x,y)` for `B` of degree `≤ dx` in `x` and `≤ dy` in `y`. -/
def biVal (b : ℕ → ℕ → K) (dx dy : ℕ) (x y : K) : K :=
  ∑ i ∈ Finset.range (dx + 1), ∑ j ∈ Finset.range (dy + 1), b i j * x ^ i * y ^ j

/-- Coefficients of the polynomial `B(·,y)` (in `x`). -/
def sliceX (b : ℕ → ℕ → K) (dx dy : ℕ) (y : K) : List K :=
  (List.range (dx + 1)).map fun i => ∑ j ∈ Finset.range (dy + 1), b i j * y ^ j

/-- Coefficients of the polynomial `B(x,·)` (in `y`). -/
def sliceY (b : ℕ → ℕ → K) (dx dy : ℕ) (x : K) : List K :=
  (List.range (dy + 1)).map fun j => ∑ i ∈ Finset.range (dx + 1), b i j * x ^ i

end DyCAPS
