import Verif.Model.VSS

/-!
# `internal/party/party_utils.go`: storing a proof
-/

namespace DyCAPS

variable {G1 : Type}

/-- One turn of the loop of `Pi.Set`, party_utils.go:263-269. Both slices are indexed with `j`. -/
def Pi.setEntry (src : Pi G1) (pi : Pi G1) (j : ℕ) : Go (Pi G1) := do
  let c ← idx src.contents j
  if j < pi.contents.length then pure { pi with contents := pi.contents.set j c } else .error .panic

/-- `Pi.Set`, party_utils.go:261-270, on the receiver `dst`. -/
def Pi.set (dst src : Pi G1) (F : ℕ) : Go (Pi G1) := (oneTo (2 * F + 1)).foldlM (Pi.setEntry src) { dst with gs := src.gs }

end DyCAPS
