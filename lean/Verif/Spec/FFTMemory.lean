import Mathlib.Data.List.Range

/-! # Reading a slice of a memory -/

namespace DyCAPS

/-- The slice of length `n` at address `a`. -/
def slice {K : Type} (mem : ℕ → K) (a n : ℕ) : List K := (List.range n).map fun j => mem (a + j)

end DyCAPS
