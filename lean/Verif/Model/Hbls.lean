import Verif.Model.Backends
import Verif.Model.Kilic

/-!
# The field of the herumi back end

`internal/bls/bignum_hbls.go` (build tag `bignum_hbls`). The library `herumi/bls-eth-go-binary` is not in /repo. Its `Fr` is a scalar of the field; `FrAdd`, `FrSub`, `FrMul`, `FrInv` and
`FrDiv` are the field operations with `1/0 = 0`. What `SetString` does with a string is a parameter, constrained by `HblsLib.Good` only. `AsFr` is `hblsAsFr` (`Model/Backends`) and the
pairing check is `hblsPairingsVerify` (`Model/Kilic`).
-/

namespace DyCAPS

/-- The library function whose behaviour is not fixed by field arithmetic: `Fr.SetString(v, 10)`, `none` if it returns an error. Used at bignum_hbls.go:31. -/
structure HblsLib where
  setString : List Char → Option Fr

/-- What the code relies on: the decimal text of a reduced number is read as that number, and text that is no number is an error. bignum_hbls.go:31, 70. -/
structure HblsLib.Good (L : HblsLib) : Prop where
  reads (x : Fr) : L.setString (decimal x.val) = some x
  rejects (v : List Char) (h : readDecimal v = none) : L.setString v = none

/-- `SetFr`, bignum_hbls.go:30-34: panics on an error. -/
def hblsSetFr (L : HblsLib) (v : List Char) : Go Fr :=
  match L.setString v with
  | some x => .ok x
  | none => .error .panic

/-- `FrFrom32`, bignum_hbls.go:38-44; `SetLittleEndian` of a string below the modulus is its value. -/
def hblsFrFrom32 (dst : Fr) (v : Bytes) : Fr × Bool := if !validFr v then (dst, false) else ((beNat v.reverse : Fr), true)

/-- `FrTo32`, bignum_hbls.go:47-56: `Serialize` gives 32 big-endian bytes. -/
def hblsFrTo32 (src : Fr) : Bytes := swapLoop 31 16 (beBytes32 src.val)

/-- `FrStr`, bignum_hbls.go:66-71; a nil pointer is `none`. -/
def hblsFrStr : Option Fr → List Char
  | none => "<nil>".toList
  | some b => decimal b.val

/-- `EqualFr`, bignum_hbls.go:81-83; `EqualOne`, 73-75, and `EqualZero`, 77-79, compare with 1 and 0. -/
def hblsEqualFr (a b : Fr) : Bool := decide (a = b)

/-- `AddModFr`, bignum_hbls.go:95-97. -/
def hblsAdd (a b : Fr) : Fr := a + b

/-- `SubModFr`, bignum_hbls.go:91-93. -/
def hblsSub (a b : Fr) : Fr := a - b

/-- `MulModFr`, bignum_hbls.go:103-105. -/
def hblsMul (a b : Fr) : Fr := a * b

/-- `InvModFr`, bignum_hbls.go:107-109. -/
def hblsInv (v : Fr) : Fr := v⁻¹

/-- `DivModFr`, bignum_hbls.go:99-101. -/
def hblsDiv (a b : Fr) : Fr := a * b⁻¹

/-- `BatchInvModFr`, bignum_hbls.go:113-117: one `FrInv` in place for each index. -/
def hblsBatchInv (f : List Fr) : List Fr := (List.range f.length).foldl (fun f i => f.set i (hblsInv (f.getD i 0))) f

/-- `EvalPolyAt`, bignum_hbls.go:123-131: Horner's rule in the library, which returns an error for an empty list (line 129 panics on it). -/
def hblsEvalPolyAt (p : List Fr) (x : Fr) : Go Fr :=
  if p.length = 0 then .error .panic else .ok (p.foldr (fun c acc => acc * x + c) 0)

/-- `big.Int.Exp(x, e, modulus)`, bignum_hbls.go:139: for a negative exponent a power of the inverse, and nil if there is none. -/
def bigExp (x e : ℤ) : Option ℕ :=
  if 0 ≤ e then some ((x ^ e.toNat) % (frModulus : ℤ)).toNat
  else if (x : Fr) = 0 then none
  else some (((x : Fr)⁻¹) ^ (-e).toNat).val

/-- `ExpModFr`, bignum_hbls.go:134-141: through decimal text and `math/big`. The text of a nil `*big.Int` is `<nil>`. -/
def hblsExp (L : HblsLib) (v : Fr) (e : ℤ) : Go Fr :=
  match readDecimal (hblsFrStr (some v)) with
  | none => .error .panic
  | some vBig =>
    match bigExp vBig e with
    | some res => hblsSetFr L (decimal res)
    | none => hblsSetFr L "<nil>".toList

end DyCAPS
