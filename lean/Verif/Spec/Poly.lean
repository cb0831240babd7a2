import Mathlib.Algebra.Polynomial.Eval.Defs
import Mathlib.Algebra.Polynomial.BigOperators

/-!
# Specification vocabulary for polynomials

A coefficient list denotes a polynomial; these definitions do not mention the model.
-/

namespace DyCAPS

open Polynomial

/-- The value at `x` of the polynomial with little-endian coefficients `c`. -/
def polyVal {K : Type*} [Semiring K] (c : List K) (x : K) : K :=
  ∑ i ∈ Finset.range c.length, c.getD i 0 * x ^ i

/-- The polynomial with little-endian coefficients `c`. -/
noncomputable def polyOf {K : Type*} [Semiring K] (c : List K) : K[X] :=
  ∑ i ∈ Finset.range c.length, Polynomial.C (c.getD i 0) * Polynomial.X ^ i

end DyCAPS
