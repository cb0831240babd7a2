import Mathlib.Algebra.BigOperators.Group.Finset.Basic
import Mathlib.Algebra.BigOperators.Intervals

/-! Specification vocabulary for byte strings. -/

namespace DyCAPS

/-- The number denoted by a little-endian byte string. -/
def leValue (b : List UInt8) : ℕ := ∑ i ∈ Finset.range b.length, (b.getD i 0).toNat * 256 ^ i

end DyCAPS
