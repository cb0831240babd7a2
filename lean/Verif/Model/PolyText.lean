import Verif.Model.Kilic

/-!
# `internal/party/party_utils.go`: polynomials as text
-/

namespace DyCAPS

/-- One turn of the loop, party_utils.go:294-305: what is added to the text for coefficient `c` of degree `i`. `String()` of a scalar is its decimal text, bignum_kilic.go:74. -/
def polyTerm (i : ℕ) (c : Fr) : List Char :=
  if i ≠ 0 ∧ c = 0 then []
  else if i > 0 then decimal c.val ++ " x^".toList ++ decimal i ++ " + ".toList
  else decimal c.val

/-- `PolyToString`, party_utils.go:291-307, from the last coefficient down to the constant term. -/
def polyToString (coeffs : List Fr) : List Char := (List.range coeffs.length).reverse.flatMap fun i => polyTerm i (coeffs.getD i 0)

end DyCAPS
